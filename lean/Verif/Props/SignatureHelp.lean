import Verif.Spec.SignatureHelp
import Mathlib.Tactic.Common
import Mathlib.Data.List.Nodup
import Mathlib.Data.List.Induction
/-!
C80: signature help is about the innermost call, the argument at the cursor and the parameter that gets it.
-/
namespace Verif.SignatureHelp

/-! ## The call -/

theorem visit_eq (off : Nat) (src : Text) (t : Syn) (b : Option Site) :
    visit off src t b = (calls t).foldl (fun b c => consider off src c b) b := by
  induction t generalizing b with
  | nil => rfl
  | call c kids next ihk ihn =>
    simp only [visit, calls, List.cons_append, List.foldl_cons, List.foldl_append]
    rw [ihk, ihn]
  | other kids next ihk ihn =>
    simp only [visit, calls, List.foldl_append]
    rw [ihk, ihn]

def siteOf (off : Nat) (src : Text) (c : Call) : Option Site :=
  c.message.map (fun msg => ⟨msg.1, c.receiver, activeArgument c off src, activeKeyword c off, c.stop - c.start⟩)

theorem consider_cases (off : Nat) (src : Text) (c : Call) (b : Option Site) :
    (¬ Around off c ∧ consider off src c b = b) ∨
    (Around off c ∧ (∃ s, b = some s ∧ s.span ≤ c.stop - c.start) ∧ consider off src c b = b) ∨
    (Around off c ∧ (∀ s, b = some s → c.stop - c.start < s.span) ∧ consider off src c b = siteOf off src c) := by
  simp only [consider, siteOf]
  cases hm : c.message with
  | none =>
    left
    refine ⟨?_, rfl⟩
    rintro ⟨msg, h, _⟩
    rw [hm] at h
    cases h
  | some msg =>
    dsimp only [Option.map]
    by_cases h1 : off < msg.2 ∨ off > c.stop
    · rw [if_pos h1]
      left
      refine ⟨?_, rfl⟩
      rintro ⟨m', h, a, b, _⟩
      rw [hm] at h
      cases h
      omega
    · rw [if_neg h1]
      by_cases h2 : c.block.any (fun b => decide (off ≥ b)) = true
      · rw [if_pos h2]
        left
        refine ⟨?_, rfl⟩
        rintro ⟨_, _, _, _, k⟩
        cases hb : c.block with
        | none =>
          rw [hb] at h2
          cases h2
        | some x =>
          rw [hb] at h2
          have := k x hb
          simp at h2
          omega
      · rw [if_neg h2]
        have ar : Around off c := by
          refine ⟨msg, hm, by omega, by omega, ?_⟩
          intro x hx
          rw [hx] at h2
          simp at h2
          exact h2
        right
        cases b with
        | none =>
          right
          refine ⟨ar, ?_, ?_⟩
          · intro s hs
            cases hs
          · rfl
        | some s =>
          by_cases h3 : s.span ≤ c.stop - c.start
          · left
            refine ⟨ar, ⟨s, rfl, h3⟩, ?_⟩
            rw [if_pos (by simpa using h3)]
          · right
            refine ⟨ar, ?_, ?_⟩
            · intro s' hs
              cases hs
              omega
            · rw [if_neg (by simpa using h3)]

theorem fold_best (off : Nat) (src : Text) (l : List Call) :
    (∀ s, l.foldl (fun b c => consider off src c b) none = some s → ∃ l1 c l2, l = l1 ++ c :: l2 ∧ Around off c ∧
      siteOf off src c = some s ∧ (∀ d ∈ l1, Around off d → c.stop - c.start < d.stop - d.start) ∧
      ∀ d ∈ l2, Around off d → c.stop - c.start ≤ d.stop - d.start) ∧
    (l.foldl (fun b c => consider off src c b) none = none → ∀ c ∈ l, ¬ Around off c) := by
  have span : ∀ {c : Call} {s : Site}, siteOf off src c = some s → s.span = c.stop - c.start := by
    intro c s h
    simp only [siteOf, Option.map_eq_some_iff] at h
    obtain ⟨_, _, rfl⟩ := h
    rfl
  induction l using List.reverseRecOn with
  | nil =>
    constructor
    · intro s h
      cases h
    · intro _ c hc
      cases hc
  | append_singleton l x ih =>
    obtain ⟨ih1, ih2⟩ := ih
    rw [List.foldl_append]
    simp only [List.foldl_cons, List.foldl_nil]
    generalize hb : l.foldl (fun b c => consider off src c b) none = b at *
    rcases consider_cases off src x b with ⟨na, h⟩ | ⟨ar, ⟨s0, hs0, hle⟩, h⟩ | ⟨ar, hlt, h⟩
    · rw [h]
      constructor
      · intro s hs
        obtain ⟨l1, c, l2, rfl, a1, a2, a3, a4⟩ := ih1 s hs
        refine ⟨l1, c, l2 ++ [x], by simp, a1, a2, a3, ?_⟩
        intro d hd ad
        rcases List.mem_append.mp hd with hd | hd
        · exact a4 d hd ad
        · rw [List.mem_singleton.mp hd] at ad
          exact absurd ad na
      · intro hn c hc
        rcases List.mem_append.mp hc with hc | hc
        · exact ih2 hn c hc
        · rw [List.mem_singleton.mp hc]
          exact na
    · rw [h]
      constructor
      · intro s hs
        obtain ⟨l1, c, l2, rfl, a1, a2, a3, a4⟩ := ih1 s hs
        refine ⟨l1, c, l2 ++ [x], by simp, a1, a2, a3, ?_⟩
        intro d hd ad
        rcases List.mem_append.mp hd with hd | hd
        · exact a4 d hd ad
        · rw [List.mem_singleton.mp hd]
          have e : s = s0 := by
            rw [hs0] at hs
            cases hs
            rfl
          rw [← span a2, e]
          exact hle
      · intro hn
        rw [hs0] at hn
        cases hn
    · rw [h]
      constructor
      · intro s hs
        refine ⟨l, x, [], rfl, ar, hs, ?_, ?_⟩
        · intro d hd ad
          cases b with
          | none => exact absurd ad (ih2 rfl d hd)
          | some s0 =>
            have lt := hlt s0 rfl
            obtain ⟨l1, c, l2, rfl, a1, a2, a3, a4⟩ := ih1 s0 rfl
            rw [span a2] at lt
            rcases List.mem_append.mp hd with hd | hd
            · exact Nat.lt_trans lt (a3 d hd ad)
            · rcases List.mem_cons.mp hd with rfl | hd
              · exact lt
              · exact Nat.lt_of_lt_of_le lt (a4 d hd ad)
        · intro d hd
          cases hd
      · intro hn
        obtain ⟨msg, hm, _⟩ := ar
        simp only [siteOf, hm] at hn
        cases hn

/-- The site is a call around the cursor, the shortest one, and of those the first that the visit meets; there is none exactly
when no call is around the cursor.  For every document and cursor. -/
theorem c80_call (off : Nat) (src : Text) (t : Syn) :
    (∀ s, find off src t = some s → ∃ l1 c l2, calls t = l1 ++ c :: l2 ∧ Around off c ∧
      s.span = c.stop - c.start ∧ c.message.map Prod.fst = some s.messageStart ∧ s.receiver = c.receiver ∧
      s.parameter = activeArgument c off src ∧ s.keyword = activeKeyword c off ∧
      (∀ d ∈ l1, Around off d → c.stop - c.start < d.stop - d.start) ∧
      ∀ d ∈ l2, Around off d → c.stop - c.start ≤ d.stop - d.start) ∧
    (find off src t = none ↔ ∀ c ∈ calls t, ¬ Around off c) := by
  simp only [find]
  rw [visit_eq]
  obtain ⟨h1, h2⟩ := fold_best off src (calls t)
  refine ⟨?_, h2, ?_⟩
  · intro s hs
    obtain ⟨l1, c, l2, e, a1, a2, a3, a4⟩ := h1 s hs
    simp only [siteOf, Option.map_eq_some_iff] at a2
    obtain ⟨msg, hm, rfl⟩ := a2
    exact ⟨l1, c, l2, e, a1, rfl, by rw [hm]; rfl, rfl, rfl, rfl, a3, a4⟩
  · intro h
    cases hs : (calls t).foldl (fun b c => consider off src c b) none with
    | none => rfl
    | some s =>
      obtain ⟨l1, c, l2, e, a1, _⟩ := h1 s hs
      exact absurd a1 (h c (by rw [e]; simp))

/-- When calls are nested or apart, as they are in a text, the call that is found is inside every other call around the cursor. -/
theorem c80_innermost (off : Nat) (src : Text) (t : Syn) (s : Site)
    (nested : ∀ c ∈ calls t, ∀ d ∈ calls t, (c.start ≤ d.start ∧ d.stop ≤ c.stop) ∨ (d.start ≤ c.start ∧ c.stop ≤ d.stop) ∨
      c.stop ≤ d.start ∨ d.stop ≤ c.start)
    (names : ∀ c ∈ calls t, ∀ msg, c.message = some msg → c.start < msg.2) (h : find off src t = some s) :
    ∃ c ∈ calls t, Around off c ∧ c.message.map Prod.fst = some s.messageStart ∧
      ∀ d ∈ calls t, Around off d → d.start ≤ c.start ∧ c.stop ≤ d.stop := by
  obtain ⟨l1, c, l2, e, a1, _, a3, _, _, _, lt, le⟩ := (c80_call off src t).1 s h
  have hc : c ∈ calls t := by rw [e]; simp
  refine ⟨c, hc, a1, a3, ?_⟩
  intro d hd ad
  have len : c.stop - c.start ≤ d.stop - d.start := by
    rw [e] at hd
    rcases List.mem_append.mp hd with hd | hd
    · exact Nat.le_of_lt (lt d hd ad)
    · rcases List.mem_cons.mp hd with rfl | hd
      · exact Nat.le_refl _
      · exact le d hd ad
  obtain ⟨m1, hm1, x1, y1, _⟩ := a1
  obtain ⟨m2, hm2, x2, y2, _⟩ := ad
  have n1 := names c hc m1 hm1
  have n2 := names d hd m2 hm2
  rcases nested c hc d hd with k | k | k | k <;> omega

/-! ## The argument -/

theorem argLoop_none {off i : Nat} {as : List Arg} : argLoop off i as = none ↔ ∀ a ∈ as, a.stop < off := by
  induction as generalizing i with
  | nil => simp [argLoop]
  | cons a as ih =>
    simp only [argLoop]
    by_cases h : off ≤ a.stop
    · rw [if_pos h]
      constructor
      · intro k
        cases k
      · intro k
        have := k a List.mem_cons_self
        omega
    · rw [if_neg h, ih]
      constructor
      · intro k b hb
        rcases List.mem_cons.mp hb with rfl | hb
        · omega
        · exact k b hb
      · intro k b hb
        exact k b (List.mem_cons_of_mem _ hb)

theorem mem_slice {src : Text} {a b x : Nat} : x ∈ slice src a b ↔ ∃ p, a ≤ p ∧ p < b ∧ src[p]? = some x := by
  simp only [slice]
  rw [List.mem_iff_getElem?]
  constructor
  · rintro ⟨i, h⟩
    rw [List.getElem?_drop, List.getElem?_take] at h
    split at h
    · exact ⟨a + i, by omega, by omega, h⟩
    · cases h
  · rintro ⟨p, h1, h2, h3⟩
    refine ⟨p - a, ?_⟩
    rw [List.getElem?_drop, List.getElem?_take, show a + (p - a) = p by omega, if_pos h2]
    exact h3

theorem laid_ge {a : Arg} {as : List Arg} {ss : List Nat} (h : Laid (a :: as) ss) : ∀ s ∈ ss, a.stop ≤ s := by
  generalize hl : a :: as = l at h
  induction h generalizing a as with
  | last b =>
    intro s hs
    cases hs
  | trailing b s0 h0 =>
    cases hl
    intro s hs
    rw [List.mem_singleton.mp hs]
    exact h0
  | @cons a' b as' s0 ss h1 h2 h3 h4 ih =>
    cases hl
    intro s hs
    rcases List.mem_cons.mp hs with rfl | hs
    · exact h1
    · have := ih rfl s hs
      omega

theorem filter_none {ss : List Nat} {off : Nat} (h : ∀ s ∈ ss, off ≤ s) : ss.filter (fun s => decide (s < off)) = [] := by
  rw [List.filter_eq_nil_iff]
  intro s hs k
  have := h s hs
  simp at k
  omega

theorem argLoop_some {off i j : Nat} {as : List Arg} {ss : List Nat} (hl : Laid as ss) (ht : Tight as ss)
    (h : argLoop off i as = some j) : j = i + (ss.filter (fun s => decide (s < off))).length := by
  induction hl generalizing i with
  | last a =>
    simp only [argLoop] at h
    split at h
    · cases h
      simp
    · cases h
  | trailing a s h0 =>
    simp only [argLoop] at h
    split at h
    · cases h
      rw [filter_none]
      · simp
      · intro x hx
        rw [List.mem_singleton.mp hx]
        omega
    · cases h
  | @cons a b as s ss h1 h2 h3 h4 ih =>
    have hs : s = a.stop := by
      have := ht 0 (by simp)
      simpa using this
    rw [argLoop] at h
    split at h
    · cases h
      rw [filter_none]
      · simp
      · intro x hx
        have := laid_ge (.cons h1 h2 h3 h4) x hx
        omega
    · rename_i hn
      have := ih (by
        intro k hk
        have := ht (k + 1) (by simpa using hk)
        simpa using this) h
      rw [List.filter_cons, if_pos (by simp; omega)]
      simp only [List.length_cons]
      omega

theorem laid_all {off : Nat} {as : List Arg} {ss : List Nat} (hl : Laid as ss) (ht : Tight as ss) (h : ∀ a ∈ as, a.stop < off) :
    (ss.filter (fun s => decide (s < off))).length + 1 =
      as.length + (if ∃ s, ss[as.length - 1]? = some s ∧ s < off then 1 else 0) := by
  induction hl with
  | last a => simp
  | trailing a s h0 =>
    by_cases k : s < off
    · simp [k]
    · simp [k]
  | @cons a b as s ss h1 h2 h3 h4 ih =>
    have hs : s = a.stop := by
      have := ht 0 (by simp)
      simpa using this
    have hlt := h a List.mem_cons_self
    have := ih (by
      intro k hk
      have := ht (k + 1) (by simpa using hk)
      simpa using this) (fun x hx => h x (List.mem_cons_of_mem _ hx))
    rw [List.filter_cons, if_pos (by simp; omega)]
    simp only [List.length_cons, Nat.add_sub_cancel] at *
    have e : (s :: ss)[as.length + 1]? = ss[as.length]? := by simp
    rw [e]
    omega

/-- The argument of the cursor is the number of commas before it, when every comma between two arguments stands directly behind
an argument and the commas after the last argument are separators. -/
theorem c80_argument (c : Call) (off : Nat) (src : Text) (as : List Arg) (ss : List Nat) (last : Arg) (hc : c.args = some as)
    (hl : Laid as ss) (ht : Tight as ss) (hlast : as.getLast? = some last) (hoff : off ≤ src.length)
    (tail : ∀ p, last.stop ≤ p → p < off → (src[p]? = some 44 ↔ ss[as.length - 1]? = some p)) :
    activeArgument c off src = (ss.filter (fun s => decide (s < off))).length := by
  have ne : as ≠ [] := by
    intro h
    rw [h] at hlast
    cases hlast
  simp only [activeArgument, hc]
  rw [if_neg ne]
  cases h : argLoop off 0 as with
  | some j =>
    dsimp only
    have := argLoop_some hl ht h
    omega
  | none =>
    dsimp only
    have all := argLoop_none.mp h
    have key := laid_all hl ht all
    have hlt := all last (List.mem_of_getLast? hlast)
    have hlen : 0 < as.length := List.length_pos_iff.mpr ne
    simp only [hlast, Option.map_some, Option.getD_some, Nat.min_eq_left hoff, Nat.min_eq_left (show last.stop ≤ src.length by omega)]
    have ge : ∀ s, ss[as.length - 1]? = some s → last.stop ≤ s := by
      intro s hs
      clear key tail hlt all h hoff ne hc
      induction hl with
      | last a => simp at hs
      | trailing a s0 h0 =>
        simp at hs hlast
        rw [← hs, ← hlast]
        exact h0
      | @cons a b as s0 ss h1 h2 h3 h4 ih =>
        refine ih ?_ ?_ ?_ ?_
        · intro k hk
          have := ht (k + 1) (by simpa using hk)
          simpa using this
        · simpa [List.getLast?_cons] using hlast
        · simp
        · simpa using hs
    by_cases hx : ∃ s, ss[as.length - 1]? = some s ∧ s < off
    · obtain ⟨s, hs, hso⟩ := hx
      rw [if_pos ⟨s, hs, hso⟩] at key
      rw [if_pos ⟨by omega, mem_slice.mpr ⟨s, ge s hs, hso, (tail s (ge s hs) hso).mpr hs⟩⟩]
      omega
    · rw [if_neg hx] at key
      rw [if_neg]
      · omega
      · rintro ⟨_, k⟩
        obtain ⟨p, p1, p2, p3⟩ := mem_slice.mp k
        exact hx ⟨p, (tail p p1 p2).mp p3, p2⟩

/-- The cursor is in the element. -/
def here (off : Nat) (e : Element) : Bool := e.assoc && decide (e.start ≤ off) && decide (off ≤ e.stop)

theorem keywordIn_eq (off : Nat) (es : List Element) : keywordIn off es = (es.find? (here off)).map Element.key := by
  induction es with
  | nil => rfl
  | cons e es ih =>
    simp only [keywordIn, List.find?_cons]
    cases ha : e.assoc with
    | false =>
      have : here off e = false := by simp [here, ha]
      rw [if_pos rfl, this]
      exact ih
    | true =>
      rw [if_neg (by simp)]
      by_cases h : off < e.start ∨ off > e.stop
      · have : here off e = false := by
          simp only [here, ha, Bool.true_and]
          rcases h with h | h
          · simp; omega
          · simp; omega
        rw [if_pos h, this]
        exact ih
      · have : here off e = true := by
          simp only [here, ha, Bool.true_and]
          simp
          omega
        rw [if_neg h, this]
        rfl

theorem keywordArgs_eq (off : Nat) (as : List Arg) :
    keywordArgs off as = ((as.flatMap (fun a => a.keywords.getD [])).find? (here off)).bind Element.key := by
  induction as with
  | nil => rfl
  | cons a as ih =>
    simp only [keywordArgs, List.flatMap_cons, List.find?_append]
    cases hk : a.keywords with
    | none => simpa using ih
    | some es =>
      simp only [Option.getD_some]
      rw [keywordIn_eq]
      cases es.find? (here off) with
      | none => simpa using ih
      | some e => rfl

/-- The keyword of the cursor is the one whose key and value are around it; elements are apart in a text. -/
theorem c80_keyword_at (c : Call) (off : Nat) (as : List Arg) (hc : c.args = some as)
    (apart : (as.flatMap (fun a => a.keywords.getD [])).Pairwise (fun e f => e.stop < f.start)) (k : Text) :
    activeKeyword c off = some k ↔ ∃ a ∈ as, ∃ es, a.keywords = some es ∧ ∃ e ∈ es, e.assoc = true ∧ e.start ≤ off ∧ off ≤ e.stop ∧
      e.key = some k := by
  simp only [activeKeyword, hc]
  rw [keywordArgs_eq]
  have mem : ∀ e, e ∈ as.flatMap (fun a => a.keywords.getD []) ↔ ∃ a ∈ as, ∃ es, a.keywords = some es ∧ e ∈ es := by
    intro e
    rw [List.mem_flatMap]
    constructor
    · rintro ⟨a, ha, he⟩
      cases hk : a.keywords with
      | none =>
        rw [hk] at he
        cases he
      | some es =>
        rw [hk] at he
        exact ⟨a, ha, es, hk, he⟩
    · rintro ⟨a, ha, es, hk, he⟩
      exact ⟨a, ha, by rw [hk]; exact he⟩
  have hiff : ∀ e, here off e = true ↔ e.assoc = true ∧ e.start ≤ off ∧ off ≤ e.stop := by
    intro e
    simp [here, and_assoc]
  constructor
  · intro h
    obtain ⟨e, he, hk⟩ := Option.bind_eq_some_iff.mp h
    have h1 := List.find?_some he
    obtain ⟨a, ha, es, hes, hm⟩ := (mem e).mp (List.mem_of_find?_eq_some he)
    obtain ⟨x, y, z⟩ := (hiff e).mp h1
    exact ⟨a, ha, es, hes, e, hm, x, y, z, hk⟩
  · rintro ⟨a, ha, es, hes, e, hm, x, y, z, hk⟩
    have he := (mem e).mpr ⟨a, ha, es, hes, hm⟩
    have hh := (hiff e).mpr ⟨x, y, z⟩
    refine Option.bind_eq_some_iff.mpr ⟨e, ?_, hk⟩
    generalize as.flatMap (fun a => a.keywords.getD []) = l at apart he
    clear mem
    induction l with
    | nil => cases he
    | cons f l ih =>
      obtain ⟨p1, p2⟩ := List.pairwise_cons.mp apart
      rw [List.find?_cons]
      rcases List.mem_cons.mp he with rfl | he
      · rw [hh]
      · have : here off f = false := by
          rw [Bool.eq_false_iff]
          intro k
          have := (hiff f).mp k
          have := p1 e he
          omega
        rw [this]
        exact ih p2 he

/-! ## The parameter -/

theorem filter_zipIdx_all {l : List Kind} {n : Nat} (h : ∀ k ∈ l, k.isPositional = true) :
    (l.zipIdx n).filter (fun k => k.1.isPositional) = l.zipIdx n := by
  rw [List.filter_eq_self]
  intro k hk
  exact h k.1 (List.fst_mem_of_mem_zipIdx hk)

theorem filter_zipIdx_none {l : List Kind} {n : Nat} (h : ∀ k ∈ l, k.isPositional = false) :
    (l.zipIdx n).filter (fun k => k.1.isPositional) = [] := by
  rw [List.filter_eq_nil_iff]
  intro k hk
  rw [h k.1 (List.fst_mem_of_mem_zipIdx hk)]
  simp

theorem find_zipIdx (l : List Kind) (n : Nat) :
    ((l.zipIdx n).find? (fun k => k.1.isRest)).map Prod.snd = (l.findIdx? Kind.isRest).map (· + n) := by
  induction l generalizing n with
  | nil => rfl
  | cons k l ih =>
    rw [List.zipIdx_cons, List.find?_cons, List.findIdx?_cons]
    cases h : k.isRest with
    | true => simp
    | false =>
      simp only [Bool.false_eq_true, if_false]
      rw [ih, Option.map_map]
      congr 1
      funext x
      simp
      omega

theorem active_front (front others : List Kind) (hf : ∀ k ∈ front, k.isPositional = true) (ho : ∀ k ∈ others, k.isPositional = false)
    (i : Nat) : activePositional (front ++ others) i =
      if i < front.length then i else (match front.findIdx? Kind.isRest with | some j => j | none => front.length - 1) := by
  have e : ((front ++ others).zipIdx).filter (fun k => k.1.isPositional) = front.zipIdx := by
    rw [List.zipIdx_append, List.filter_append, filter_zipIdx_all hf, filter_zipIdx_none ho, List.append_nil]
  simp only [activePositional]
  rw [e]
  by_cases h : i < front.length
  · rw [if_pos h, List.getElem?_zipIdx, List.getElem?_eq_getElem h]
    simp
  · rw [if_neg h, List.getElem?_zipIdx, List.getElem?_eq_none (by omega)]
    simp only [Option.map_none]
    have fz := find_zipIdx front 0
    cases hx : front.findIdx? Kind.isRest with
    | some j =>
      rw [hx] at fz
      cases hy : (front.zipIdx).find? (fun k => k.1.isRest) with
      | none =>
        rw [hy] at fz
        cases fz
      | some k =>
        rw [hy] at fz
        simpa using fz
    | none =>
      rw [hx] at fz
      cases hy : (front.zipIdx).find? (fun k => k.1.isRest) with
      | some k =>
        rw [hy] at fz
        cases fz
      | none =>
        dsimp only
        rw [List.getLast?_eq_getElem?, List.getElem?_zipIdx]
        cases front with
        | nil => rfl
        | cons a l => simp

/-- The parameter that is shown for a positional argument is the one that Ruby binds it to, for every number of arguments of a
method without required parameters behind optional ones or a rest, and for every method when there is one argument for each
positional parameter. -/
theorem c80_positional (ps : List Param) (r o p : Nat) (rest : Bool) (hs : Shape (ps.map Param.kind) r o rest p) (n i j : Nat)
    (hi : i < n) (hb : binds r o rest p n i = some j) (hp : p = 0 ∨ n = r + o + (if rest then 1 else 0) + p) :
    activeParam ps i none = j := by
  obtain ⟨rs, others, e, hr, ho⟩ := hs
  simp only [activeParam]
  rw [e]
  have hrs : ∀ k ∈ rs, k.isPositional = true := by
    cases rest with
    | true =>
      obtain ⟨k, rfl, hk⟩ := hr
      intro x hx
      rw [List.mem_singleton.mp hx]
      rcases hk with rfl | rfl | rfl <;> rfl
    | false =>
      have : rs = [] := hr
      rw [this]
      intro x hx
      cases hx
  have hlen : rs.length = if rest then 1 else 0 := by
    cases rest with
    | true =>
      obtain ⟨k, rfl, _⟩ := hr
      rfl
    | false =>
      have : rs = [] := hr
      rw [this]
      rfl
  rw [active_front]
  · simp only [List.length_append, List.length_replicate]
    simp only [binds] at hb
    split at hb
    · cases hb
    · rename_i hn
      by_cases hlt : i < r + o + rs.length + p
      · rw [if_pos hlt]
        rw [hlen] at hlt
        by_cases h1 : i < r
        · rw [if_pos h1] at hb
          cases hb
          rfl
        · rw [if_neg h1] at hb
          split at hb
          · cases hb
            rfl
          · rename_i h2
            split at hb
            · rename_i h3
              cases rest with
              | false => cases hb
              | true =>
                simp only [if_true] at hb hp hlt
                cases hb
                rcases hp with hp | hp <;> omega
            · rename_i h3
              cases hb
              cases rest with
              | false =>
                simp only [Bool.false_eq_true, if_false] at hp hlt ⊢
                rcases hp with hp | hp <;> omega
              | true =>
                simp only [if_true] at hp hlt ⊢
                rcases hp with hp | hp <;> omega
      · rw [if_neg hlt]
        rw [hlen] at hlt
        rw [if_neg (by omega)] at hb
        cases rest with
        | false =>
          simp only [Bool.false_eq_true, if_false] at hp hlt hb
          split at hb
          · omega
          · split at hb
            · cases hb
            · rename_i h2 h3
              rcases hp with hp | hp <;> omega
        | true =>
          simp only [if_true] at hp hlt hb
          have hj : j = r + o := by
            split at hb
            · omega
            · split at hb
              · cases hb
                rfl
              · skip
                rcases hp with hp | hp <;> omega
          rw [hj]
          obtain ⟨k, rfl, hk⟩ := hr
          have hkr : k.isRest = true := by rcases hk with rfl | rfl | rfl <;> rfl
          have none1 : ∀ m (x : Kind), x.isRest = false → (List.replicate m x).findIdx? Kind.isRest = none := by
            intro m x hx
            rw [List.findIdx?_eq_none_iff]
            intro y hy
            rw [(List.mem_replicate.mp hy).2]
            exact hx
          rw [List.append_assoc, List.findIdx?_append, List.findIdx?_append, none1 r .required rfl, none1 o .optional_ rfl]
          simp [List.findIdx?_cons, hkr]
  · intro k hk
    simp only [List.mem_append, List.mem_replicate] at hk
    rcases hk with ((hk | hk) | hk) | hk
    · rw [hk.2]; rfl
    · rw [hk.2]; rfl
    · exact hrs k hk
    · rw [hk.2]; rfl
  · intro k hk
    rcases ho k hk with rfl | rfl | rfl | rfl | rfl <;> rfl

/-- A keyword shows the keyword parameter of its name; without one it shows the named `**` parameter. -/
theorem c80_keyword (ps : List Param) (i j : Nat) (k : Text) (p : Param) (hj : ps[j]? = some p) :
    (p.name = k → p.kind = .requiredKeyword ∨ p.kind = .optionalKeyword →
      (∀ l q, ps[l]? = some q → q.name = k → q.kind = .requiredKeyword ∨ q.kind = .optionalKeyword → l = j) →
      activeParam ps i (some k) = j) ∧
    (p.kind = .keywordRest → (∀ l q, ps[l]? = some q → q.kind = .keywordRest → l = j) →
      (∀ q ∈ ps, q.name = k → q.kind ≠ .requiredKeyword ∧ q.kind ≠ .optionalKeyword) → activeParam ps i (some k) = j) := by
  have isk : ∀ q : Param, q.kind.isKeyword = true ↔ q.kind = .requiredKeyword ∨ q.kind = .optionalKeyword := by
    intro q
    cases q.kind <;> simp [Kind.isKeyword]
  have idx : ∀ f : Param → Bool, f p = true → (∀ l q, ps[l]? = some q → f q = true → l = j) → ps.findIdx? f = some j := by
    intro f hf uniq
    cases h : ps.findIdx? f with
    | none =>
      rw [List.findIdx?_eq_none_iff] at h
      have := h p (List.mem_of_getElem? hj)
      rw [hf] at this
      cases this
    | some l =>
      obtain ⟨hl, h1, _⟩ := List.findIdx?_eq_some_iff_getElem.mp h
      rw [uniq l _ (List.getElem?_eq_getElem hl) h1]
  constructor
  · intro hn hk uniq
    simp only [activeParam]
    rw [idx]
    · simp only [Bool.and_eq_true, decide_eq_true_eq]
      exact ⟨hn, (isk p).mpr hk⟩
    · intro l q hq h
      simp only [Bool.and_eq_true, decide_eq_true_eq] at h
      exact uniq l q hq h.1 ((isk q).mp h.2)
  · intro hk uniq no
    simp only [activeParam]
    have none1 : ps.findIdx? (fun p => decide (p.name = k) && p.kind.isKeyword) = none := by
      rw [List.findIdx?_eq_none_iff]
      intro q hq
      rw [Bool.eq_false_iff]
      intro h
      simp only [Bool.and_eq_true, decide_eq_true_eq] at h
      rcases (isk q).mp h.2 with x | x
      · exact (no q hq h.1).1 x
      · exact (no q hq h.1).2 x
    rw [none1]
    dsimp only
    rw [idx]
    · simpa using hk
    · intro l q hq h
      exact uniq l q hq (by simpa using h)

/-- The active parameter is a parameter of the method, or 0 when it has none. -/
theorem c80_bound (ps : List Param) (i : Nat) (k : Option Text) :
    activeParam ps i k < ps.length ∨ (ps = [] ∧ activeParam ps i k = 0) := by
  have pos : activePositional (ps.map Param.kind) i < ps.length ∨ (ps = [] ∧ activePositional (ps.map Param.kind) i = 0) := by
    have key : ∀ x : Kind × Nat, x ∈ ((ps.map Param.kind).zipIdx).filter (fun k => k.1.isPositional) → x.2 < ps.length := by
      intro x hx
      have := List.snd_lt_add_of_mem_zipIdx (List.mem_filter.mp hx).1
      simpa using this
    simp only [activePositional]
    split
    · rename_i x hx
      exact Or.inl (key x (List.mem_of_getElem? hx))
    · split
      · rename_i x hx
        exact Or.inl (key x (List.mem_of_find?_eq_some hx))
      · split
        · rename_i x hx
          exact Or.inl (key x (List.mem_of_getLast? hx))
        · cases ps with
          | nil => exact Or.inr ⟨rfl, rfl⟩
          | cons a l => exact Or.inl (by simp)
  have idx : ∀ (f : Param → Bool) (j : Nat), ps.findIdx? f = some j → j < ps.length := by
    intro f j h
    obtain ⟨hl, _⟩ := List.findIdx?_eq_some_iff_getElem.mp h
    exact hl
  cases k with
  | none => exact pos
  | some k =>
    simp only [activeParam]
    split
    · rename_i j hj
      exact Or.inl (idx _ j hj)
    · split
      · rename_i j hj
        exact Or.inl (idx _ j hj)
      · exact pos

/-! ## Texts and the answer -/

theorem infix_join {l : Text} {ls : List Text} (h : l ∈ ls) : l <:+: join ls := by
  induction ls with
  | nil => cases h
  | cons a ls ih =>
    cases ls with
    | nil =>
      rw [List.mem_singleton.mp h]
      exact List.infix_refl _
    | cons b ls =>
      simp only [join]
      rcases List.mem_cons.mp h with rfl | h
      · exact List.infix_append_of_infix_left (List.infix_append_of_infix_left (List.infix_refl _))
      · exact List.infix_append_of_infix_right (ih h)

/-- There is one label for each parameter, in order, and each is a part of the label of the signature, as the protocol demands. -/
theorem c80_labels (name : Text) (m : Method) (i : Nat) (k : Option Text) :
    (signature name m i k).params = m.params.map label ∧
    ∀ l ∈ (signature name m i k).params, l <:+: (signature name m i k).label := by
  refine ⟨rfl, ?_⟩
  intro l hl
  simp only [signature] at hl ⊢
  exact List.infix_append_of_infix_left (List.infix_append_of_infix_left (List.infix_append_of_infix_right (infix_join hl)))

/-- A character of a name: none of those that labels add. -/
def nameChar (c : Nat) : Bool := decide (c ≠ 32 ∧ c ≠ 38 ∧ c ≠ 42 ∧ c ≠ 46 ∧ c ≠ 58 ∧ c ≠ 61)

/-- A parameter of a method without types: a name, unless the kind has none. -/
def Plain (p : Param) : Prop :=
  p.type = none ∧ (if p.kind = .forwarding ∨ p.kind = .anonymousRest ∨ p.kind = .anonymousKeywordRest then p.name = []
    else p.name ≠ [] ∧ ∀ c ∈ p.name, nameChar c = true)

/-- What a label adds to a name. -/
def marks : Kind → Text
  | .required => []
  | .optional_ => dflt
  | .rest => [42]
  | .requiredKeyword => [58]
  | .optionalKeyword => colon ++ dots
  | .keywordRest => [42, 42]
  | .block => [38]
  | .forwarding => dots
  | .anonymousRest => [42]
  | .anonymousKeywordRest => [42, 42]

theorem label_parts {p : Param} (h : Plain p) :
    (label p).filter nameChar = p.name ∧ (label p).filter (fun c => !nameChar c) = marks p.kind := by
  obtain ⟨name, kind, type⟩ := p
  obtain ⟨ht, hn⟩ := h
  dsimp only at ht hn
  subst ht
  have good : (∀ c ∈ name, nameChar c = true) → name.filter nameChar = name ∧ name.filter (fun c => !nameChar c) = [] := by
    intro k
    refine ⟨List.filter_eq_self.mpr k, List.filter_eq_nil_iff.mpr ?_⟩
    intro c hc
    rw [k c hc]
    simp
  have c1 : nameChar 42 = false := rfl
  have c2 : nameChar 38 = false := rfl
  have c3 : nameChar 58 = false := rfl
  have c4 : nameChar 32 = false := rfl
  have c5 : nameChar 46 = false := rfl
  have c6 : nameChar 61 = false := rfl
  cases kind <;> simp only [reduceCtorEq, or_self, or_true, true_or, if_true, if_false] at hn
  case forwarding => subst hn; exact ⟨rfl, rfl⟩
  case anonymousRest => subst hn; exact ⟨rfl, rfl⟩
  case anonymousKeywordRest => subst hn; exact ⟨rfl, rfl⟩
  all_goals
    obtain ⟨g1, g2⟩ := good hn.2
    simp [label, marks, colon, dots, dflt, List.filter_append, List.filter_cons, c1, c2, c3, c4, c5, c6, g1, g2]
  all_goals exact ⟨hn.2, hn.2⟩

/-- Without types the label tells the kind and the name of a parameter. -/
theorem c80_distinct (p q : Param) (hp : Plain p) (hq : Plain q) (h : label p = label q) : p = q := by
  obtain ⟨p1, p2⟩ := label_parts hp
  obtain ⟨q1, q2⟩ := label_parts hq
  rw [h] at p1 p2
  have hn : p.name = q.name := p1.symm.trans q1
  have hm : marks p.kind = marks q.kind := p2.symm.trans q2
  obtain ⟨pn, pk, pt⟩ := p
  obtain ⟨qn, qk, qt⟩ := q
  obtain ⟨a1, a2⟩ := hp
  obtain ⟨b1, b2⟩ := hq
  dsimp only at *
  subst a1 b1 hn
  cases pk <;> cases qk <;> first
    | rfl
    | (exfalso; revert hm; decide)
    | (exfalso; simp at a2 b2; first | exact b2.1 a2 | exact a2.1 b2)

/-- Help is shown exactly when there is a method or a signature; methods of the project come before RBS, all are shown in order,
and the active parameter is a parameter of the first. -/
theorem c80_help (name : Text) (facts rbs : List Method) (i : Nat) (k : Option Text) :
    (help name facts rbs i k = none ↔ facts = [] ∧ rbs = []) ∧
    ∀ h, help name facts rbs i k = some h →
      h.signatures = (if facts = [] then rbs else facts).map (fun m => signature name m i k) ∧ h.activeSignature < h.signatures.length ∧
      ∃ s, h.signatures[h.activeSignature]? = some s ∧ s.active = h.activeParameter ∧
        (h.activeParameter < s.params.length ∨ (s.params = [] ∧ h.activeParameter = 0)) := by
  have all : (if facts.map (fun m => signature name m i k) = [] then rbs.map (fun m => signature name m i k)
      else facts.map (fun m => signature name m i k)) = (if facts = [] then rbs else facts).map (fun m => signature name m i k) := by
    cases facts <;> simp
  simp only [help]
  rw [all]
  constructor
  · cases facts with
    | nil => cases rbs <;> simp
    | cons a l => simp
  · intro h hh
    cases hl : (if facts = [] then rbs else facts) with
    | nil =>
      rw [hl] at hh
      cases hh
    | cons a l =>
      rw [hl] at hh
      rw [List.map_cons] at hh
      cases hh
      refine ⟨by simp, by simp, signature name a i k, rfl, rfl, ?_⟩
      rcases c80_bound a.params i k with x | ⟨x, y⟩
      · left
        simpa [signature] using x
      · right
        simp only [signature]
        rw [x]
        exact ⟨rfl, by rw [x] at y; exact y⟩

/-! ## Examples and counterexamples -/

/-- `f(a, b)` with the cursor before `b`: the second argument of `f`. -/
theorem c80_example :
    find 5 [102, 40, 97, 44, 32, 98, 41] (.call ⟨some (0, 1), 0, 7, none, none, some [⟨2, 3, none⟩, ⟨5, 6, none⟩]⟩ .nil .nil) =
      some ⟨0, none, 1, none, 7⟩ ∧
    help [102] [⟨[⟨[120], .required, none⟩, ⟨[121], .rest, none⟩], none⟩] [] 1 none =
      some ⟨[⟨[102, 40, 120, 44, 32, 42, 121, 41], [[120], [42, 121]], 1⟩], 0, 1⟩ := by
  decide +kernel

/-- `f(g(1), 2)` with the cursor behind `g(1)`: the help is still about `g`. -/
theorem c80_closed_fails :
    find 6 [102, 40, 103, 40, 49, 41, 44, 32, 50, 41] (.call ⟨some (0, 1), 0, 10, none, none, some [⟨2, 6, none⟩, ⟨8, 9, none⟩]⟩
      (.call ⟨some (2, 3), 2, 6, none, none, some [⟨4, 5, none⟩]⟩ .nil .nil) .nil) = some ⟨2, none, 0, none, 4⟩ := by
  decide +kernel

/-- `f(a + b, c)` with the cursor at `b`: the help is about `+`. -/
theorem c80_operator_fails :
    find 6 [102, 40, 97, 32, 43, 32, 98, 44, 32, 99, 41] (.call ⟨some (0, 1), 0, 11, none, none, some [⟨2, 7, none⟩, ⟨9, 10, none⟩]⟩
      (.call ⟨some (4, 5), 2, 7, none, some (2, 3), some [⟨6, 7, none⟩]⟩ .nil .nil) .nil) = some ⟨4, some (2, 3), 0, none, 5⟩ := by
  decide +kernel

/-- `f(a , b)` with the cursor before the comma: the second argument is active though no comma is before the cursor. -/
theorem c80_comma_fails :
    activeArgument ⟨some (0, 1), 0, 8, none, none, some [⟨2, 3, none⟩, ⟨6, 7, none⟩]⟩ 4 [102, 40, 97, 32, 44, 32, 98, 41] = 1 ∧
    Laid [⟨2, 3, none⟩, ⟨6, 7, none⟩] [4] :=
  ⟨by decide +kernel, .cons (by decide) (by decide) (by decide) (.last _)⟩

/-- `def f(a = 1, b)` with one argument: Ruby gives it to `b`, the help shows `a`; `def f(*a, b)` with three arguments: the second
goes into the rest, the help shows `b`. -/
theorem c80_post_fails :
    binds 0 1 false 1 1 0 = some 1 ∧ activeParam [⟨[97], .optional_, none⟩, ⟨[98], .required, none⟩] 0 none = 0 ∧
    binds 0 0 true 1 3 1 = some 0 ∧ activeParam [⟨[97], .rest, none⟩, ⟨[98], .required, none⟩] 1 none = 1 := by
  decide +kernel

/-- `def f(a, **)` and `def f(a, ...)` with `f(1, k: 2)`: the keyword is shown at `a` and not at `**`. -/
theorem c80_anonymous_fails :
    activeParam [⟨[97], .required, none⟩, ⟨[], .anonymousKeywordRest, none⟩] 1 (some [107]) = 0 := by
  decide +kernel

/-- `def f(x, a:, b:)` with `f(1, a: 2, |)`: before the next keyword the help shows `x`. -/
theorem c80_next_fails :
    activeParam [⟨[120], .required, none⟩, ⟨[97], .requiredKeyword, none⟩, ⟨[98], .requiredKeyword, none⟩]
      (activeArgument ⟨some (0, 1), 0, 14, none, none, some [⟨2, 3, none⟩, ⟨5, 9, some [⟨true, 5, 9, some [97]⟩]⟩]⟩ 11
        [102, 40, 49, 44, 32, 97, 58, 32, 50, 44, 32, 41])
      (activeKeyword ⟨some (0, 1), 0, 14, none, none, some [⟨2, 3, none⟩, ⟨5, 9, some [⟨true, 5, 9, some [97]⟩]⟩]⟩ 11) = 0 := by
  decide +kernel

/-- Two overloads, the second argument is written: the first overload, which has one parameter, stays the active one. -/
theorem c80_overload_fails :
    (help [102] [] [⟨[⟨[97], .required, some [84]⟩], some [84]⟩, ⟨[⟨[97], .required, some [84]⟩, ⟨[98], .required, some [84]⟩], some [84]⟩]
      1 none).map (fun h => (h.activeSignature, h.activeParameter, h.signatures.map Signature.active)) = some (0, 0, [0, 1]) := by
  decide +kernel

/-- `a(a)`: the first place of the label of the parameter in the label of the signature is the name of the method. -/
theorem c80_highlight_fails :
    (signature [97] ⟨[⟨[97], .required, none⟩], none⟩ 0 none).params = [[97]] ∧
    [97] <+: (signature [97] ⟨[⟨[97], .required, none⟩], none⟩ 0 none).label := by
  decide +kernel

/-- A positional parameter and a keyword with the same type have the same label. -/
theorem c80_ambiguous_fails : label ⟨[97], .required, some [84]⟩ = label ⟨[97], .requiredKeyword, some [84]⟩ := by
  decide +kernel

end Verif.SignatureHelp
