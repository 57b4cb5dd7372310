import Verif.Spec.Edits
import Verif.Lemmas.Positions
import Verif.Lemmas.YardDoc
/-!
C73: the edits of formatters replace the whole document, and the offences of linters are shown where they are.
-/
namespace Verif.Edits
open Verif.Positions (byteLen utf16Len utf16Sum utf16Len_pos takeBytes takeBytes_append Complete exists_complete utf8Size_pos)
open Verif.Yard (lines linesGo linesGo_line linesGo_last)

/-! ### Carriage returns -/

theorem lone_cons {c : Char} {t : Text} (h : LoneReturn t) : LoneReturn (c :: t) := by
  obtain ⟨a, b, rfl, hb⟩ := h
  exact ⟨c :: a, b, rfl, hb⟩

theorem lone_append {a b : Text} (h : LoneReturn b) : LoneReturn (a ++ b) := by
  obtain ⟨x, y, rfl, hb⟩ := h
  exact ⟨a ++ x, y, by simp, hb⟩

theorem return_head {t : Text} (h : ¬ LoneReturn ('\r' :: t)) : ∃ s, t = '\n' :: s := by
  cases t with
  | nil => exact absurd ⟨[], [], rfl, by simp⟩ h
  | cons c s =>
    by_cases hc : c = '\n'
    · exact ⟨s, by rw [hc]⟩
    · exact absurd ⟨[], c :: s, rfl, by simpa using hc⟩ h

/-! ### Whole lines -/

def EndsLine (t : Text) : Prop := t = [] ∨ ∃ x, t = x ++ ['\n']

theorem endsLine_tail {c : Char} {t : Text} (h : EndsLine (c :: t)) (hc : c ≠ '\n') : EndsLine t ∧ 1 ≤ t.count '\n' := by
  rcases h with h | ⟨x, hx⟩
  · exact absurd h (by simp)
  · cases x with
    | nil => simp at hx; exact absurd hx.1 hc
    | cons d x =>
      simp at hx
      obtain ⟨-, rfl⟩ := hx
      exact ⟨.inr ⟨x, rfl⟩, by simp⟩

theorem endsLine_tail' {t : Text} (h : EndsLine ('\n' :: t)) : EndsLine t := by
  rcases h with h | ⟨x, hx⟩
  · exact absurd h (by simp)
  · cases x with
    | nil => simp at hx; exact .inl hx
    | cons d x =>
      simp at hx
      exact .inr ⟨x, hx.2⟩

theorem seek_nl (n u : Nat) (t : Text) : seek (n + 1) u ('\n' :: t) = seek n u t + 1 := by
  rw [seek.eq_def]
  simp

theorem seek_crlf (n u : Nat) (t : Text) : seek (n + 1) u ('\r' :: '\n' :: t) = seek n u t + 2 := by
  rw [seek.eq_def]
  simp

theorem seek_other (n u : Nat) {c : Char} (t : Text) (h1 : c ≠ '\n') (h2 : c ≠ '\r') : seek (n + 1) u (c :: t) = seek (n + 1) u t + 1 := by
  rw [seek.eq_def]
  simp [h1, h2]

/-- Skipping whole lines. -/
theorem seek_before (k : Nat) : ∀ (t r : Text) (n u : Nat), t.length ≤ k → EndsLine t → ¬ LoneReturn t →
    seek (t.count '\n' + n) u (t ++ r) = t.length + seek n u r := by
  induction k with
  | zero =>
    intro t r n u hk _ _
    have : t = [] := List.length_eq_zero_iff.mp (by omega)
    subst this
    simp
  | succ k ih =>
    intro t r n u hk he hl
    cases t with
    | nil => simp
    | cons c t =>
      rw [List.length_cons] at hk
      by_cases h1 : c = '\n'
      · subst h1
        have := ih t r n u (by omega) (endsLine_tail' he) (fun h => hl (lone_cons h))
        rw [List.count_cons_self, List.cons_append, show t.count '\n' + 1 + n = t.count '\n' + n + 1 by omega, seek_nl, this, List.length_cons]
        omega
      · by_cases h2 : c = '\r'
        · subst h2
          obtain ⟨s, rfl⟩ := return_head hl
          rw [List.length_cons] at hk
          have := ih s r n u (by omega) (endsLine_tail' (endsLine_tail he h1).1) (fun h => hl (lone_cons (lone_cons h)))
          rw [List.count_cons_of_ne (by decide), List.count_cons_self, List.cons_append, List.cons_append,
            show s.count '\n' + 1 + n = s.count '\n' + n + 1 by omega, seek_crlf, this]
          simp only [List.length_cons]
          omega
        · obtain ⟨e1, e2⟩ := endsLine_tail he h1
          have := ih t r n u (by omega) e1 (fun h => hl (lone_cons h))
          obtain ⟨m, hm⟩ : ∃ m, t.count '\n' = m + 1 := ⟨t.count '\n' - 1, by omega⟩
          rw [List.count_cons_of_ne h1, List.cons_append]
          rw [hm] at this ⊢
          rw [show m + 1 + n = m + n + 1 by omega] at this ⊢
          rw [seek_other _ _ _ h1 h2, this, List.length_cons]
          omega

/-- Columns in a line. -/
theorem seek_line {w : Text} (r : Text) (h1 : '\n' ∉ w) (h2 : '\r' ∉ w) : seek 0 (utf16Sum w) (w ++ r) = w.length := by
  induction w with
  | nil =>
    cases r with
    | nil => rfl
    | cons c r =>
      show seek 0 0 (c :: r) = 0
      rw [seek]
      have := utf16Len_pos c
      split
      · rfl
      · rw [if_neg (by omega)]
  | cons c w ih =>
    rw [List.mem_cons, not_or] at h1 h2
    rw [List.cons_append, seek, if_neg (by rintro (h | h); exact h1.1 h.symm; exact h2.1 h.symm), if_pos (by rw [Positions.utf16Sum_cons]; omega),
      show utf16Sum (c :: w) - utf16Len c = utf16Sum w by rw [Positions.utf16Sum_cons]; omega, ih h1.2 h2.2, List.length_cons]

theorem not_lone_left {a b : Text} (he : EndsLine a) (h : ¬ LoneReturn (a ++ b)) : ¬ LoneReturn a := by
  rintro ⟨x, y, rfl, hy⟩
  refine h ⟨x, y ++ b, by simp, ?_⟩
  cases y with
  | nil =>
    exfalso
    rcases he with he | ⟨z, hz⟩
    · exact absurd he (by simp)
    · have := congrArg List.getLast? hz
      simp at this
  | cons c y => simpa using hy

theorem no_return {w : Text} (h1 : '\n' ∉ w) (h : ¬ LoneReturn w) : '\r' ∉ w := by
  intro hm
  obtain ⟨a, b, rfl⟩ := List.append_of_mem hm
  refine h ⟨a, b, rfl, ?_⟩
  cases b with
  | nil => simp
  | cons c b =>
    simp only [List.head?_cons]
    intro hc
    injection hc with hc
    exact h1 (by simp [hc])

/-! ### The whole document -/

/-- How many lines end in a text, for an editor. -/
def breaks : Text → Nat
  | [] => 0
  | '\r' :: '\n' :: t => breaks t + 1
  | c :: t => if c = '\n' ∨ c = '\r' then breaks t + 1 else breaks t

theorem breaks_crlf (t : Text) : breaks ('\r' :: '\n' :: t) = breaks t + 1 := by rw [breaks]

theorem breaks_cons {c : Char} {t : Text} (h : c ≠ '\r' ∨ t.head? ≠ some '\n') :
    breaks (c :: t) = if c = '\n' ∨ c = '\r' then breaks t + 1 else breaks t := by
  rw [breaks]
  rintro t' rfl rfl
  simp at h

theorem seek_lt (k : Nat) : ∀ (n u : Nat) (t : Text), t.length ≤ k → n < breaks t → seek n u t < t.length := by
  induction k with
  | zero =>
    intro n u t hk hn
    have : t = [] := List.length_eq_zero_iff.mp (by omega)
    subst this
    exact absurd hn (by simp [breaks])
  | succ k ih =>
    intro n u t hk hn
    cases t with
    | nil => exact absurd hn (by simp [breaks])
    | cons c t =>
      rw [List.length_cons] at hk ⊢
      by_cases h2 : c = '\r' ∧ t.head? = some '\n'
      · obtain ⟨rfl, ht⟩ := h2
        obtain ⟨s, rfl⟩ : ∃ s, t = '\n' :: s := by
          cases t with
          | nil => exact absurd ht (by simp)
          | cons d s => simp at ht; exact ⟨s, by rw [ht]⟩
        rw [breaks_crlf] at hn
        rw [List.length_cons] at hk ⊢
        cases n with
        | zero => rw [seek, if_pos (.inr rfl)]; omega
        | succ n =>
          have := ih n u s (by omega) (by omega)
          rw [seek_crlf]; omega
      · have h3 : c ≠ '\r' ∨ t.head? ≠ some '\n' := by
          by_cases hc : c = '\r'
          · exact .inr fun ht => h2 ⟨hc, ht⟩
          · exact .inl hc
        rw [breaks_cons h3] at hn
        by_cases hc : c = '\n' ∨ c = '\r'
        · rw [if_pos hc] at hn
          cases n with
          | zero => rw [seek, if_pos hc]; omega
          | succ n =>
            have := ih n u t (by omega) (by omega)
            rcases hc with rfl | rfl
            · rw [seek_nl]; omega
            · rw [seek, if_neg (by decide), if_pos rfl]
              · omega
              · rintro t' rfl
                simp at h3
        · rw [if_neg hc] at hn
          have hc' := not_or.mp hc
          cases n with
          | zero =>
            rw [seek, if_neg hc]
            split
            · have := ih 0 (u - utf16Len c) t (by omega) hn
              omega
            · omega
          | succ n =>
            have := ih (n + 1) u t (by omega) hn
            rw [seek_other _ _ _ hc'.1 hc'.2]; omega

theorem count_le_breaks (k : Nat) : ∀ t : Text, t.length ≤ k → t.count '\n' ≤ breaks t ∧ (LoneReturn t → t.count '\n' < breaks t) := by
  induction k with
  | zero =>
    intro t hk
    have : t = [] := List.length_eq_zero_iff.mp (by omega)
    subst this
    exact ⟨by simp, fun ⟨a, b, h, _⟩ => absurd h (by simp)⟩
  | succ k ih =>
    intro t hk
    cases t with
    | nil => exact ⟨by simp, fun ⟨a, b, h, _⟩ => absurd h (by simp)⟩
    | cons c t =>
      rw [List.length_cons] at hk
      have lone_tail : LoneReturn (c :: t) → (c = '\r' ∧ t.head? ≠ some '\n') ∨ LoneReturn t := by
        rintro ⟨a, b, h, hb⟩
        cases a with
        | nil => injection h with h1 h2; subst h1; subst h2; exact .inl ⟨rfl, hb⟩
        | cons d a => injection h with h1 h2; exact .inr ⟨a, b, h2, hb⟩
      by_cases h2 : c = '\r' ∧ t.head? = some '\n'
      · obtain ⟨rfl, ht⟩ := h2
        obtain ⟨s, rfl⟩ : ∃ s, t = '\n' :: s := by
          cases t with
          | nil => exact absurd ht (by simp)
          | cons d s => simp at ht; exact ⟨s, by rw [ht]⟩
        rw [List.length_cons] at hk
        obtain ⟨i1, i2⟩ := ih s (by omega)
        rw [breaks_crlf, List.count_cons_of_ne (by decide), List.count_cons_self]
        refine ⟨by omega, fun hl => ?_⟩
        rcases lone_tail hl with ⟨-, h⟩ | h
        · exact absurd ht h
        · obtain ⟨a, b, h, hb⟩ := h
          cases a with
          | nil => exact absurd h (by simp)
          | cons d a =>
            injection h with h1 h2
            have := i2 ⟨a, b, h2, hb⟩
            omega
      · have h3 : c ≠ '\r' ∨ t.head? ≠ some '\n' := by
          by_cases hc : c = '\r'
          · exact .inr fun ht => h2 ⟨hc, ht⟩
          · exact .inl hc
        rw [breaks_cons h3]
        obtain ⟨i1, i2⟩ := ih t (by omega)
        by_cases h1 : c = '\n'
        · subst h1
          rw [List.count_cons_self, if_pos (.inl rfl)]
          refine ⟨by omega, fun hl => ?_⟩
          rcases lone_tail hl with ⟨h, -⟩ | h
          · exact absurd h (by decide)
          · have := i2 h; omega
        · rw [List.count_cons_of_ne h1]
          by_cases hr : c = '\r'
          · rw [if_pos (.inr hr)]
            exact ⟨by omega, fun _ => by omega⟩
          · rw [if_neg (by rintro (h | h); exact h1 h; exact hr h)]
            refine ⟨i1, fun hl => ?_⟩
            rcases lone_tail hl with ⟨h, -⟩ | h
            · exact absurd h hr
            · exact i2 h

theorem lastSegment_eq {a w : Text} (he : EndsLine a) (hw : '\n' ∉ w) : lastSegment (a ++ w) = w := by
  unfold lastSegment
  rw [List.reverse_append, List.takeWhile_append_of_pos]
  · have : (a.reverse.takeWhile (fun c => c ≠ '\n')) = [] := by
      rcases he with rfl | ⟨x, rfl⟩
      · rfl
      · simp
    rw [this, List.append_nil, List.reverse_reverse]
  · intro c hc
    have : c ∈ w := by simpa using hc
    simp only [ne_eq, decide_eq_true_eq]
    rintro rfl
    exact hw this

theorem seek_zero (t : Text) : seek 0 0 t = 0 := by
  cases t with
  | nil => rfl
  | cons c t =>
    rw [seek]
    have := utf16Len_pos c
    split
    · rfl
    · rw [if_neg (by omega)]

/-- The end of the document that is reported is the end of the document for the editor exactly if there is no carriage return
outside of `\r\n`. -/
theorem c73_document_end (t : Text) : (documentEnd t).index t = t.length ↔ ¬ LoneReturn t := by
  unfold Pos.index documentEnd
  constructor
  · intro h hl
    have h1 := (count_le_breaks t.length t (Nat.le_refl _)).2 hl
    have h2 := seek_lt t.length (t.count '\n') (utf16Sum (lastSegment t)) t (Nat.le_refl _) h1
    dsimp only at h
    omega
  · intro hl
    obtain ⟨a, w, rfl, ha, hw⟩ := exists_complete t
    have ha : EndsLine a := ha
    have hla := not_lone_left ha hl
    have hlw : ¬ LoneReturn w := fun h => hl (lone_append h)
    dsimp only
    rw [lastSegment_eq ha hw, List.count_append, List.count_eq_zero.mpr hw]
    rw [seek_before a.length a w 0 (utf16Sum w) (Nat.le_refl _) ha hla]
    have := seek_line [] hw (no_return hw hlw)
    rw [List.append_nil] at this
    rw [this, List.length_append]

/-- Applying the edit of a formatter gives the formatted text, for every text without carriage returns outside of `\r\n` and every
formatted text; and no edit means that nothing has to be done. -/
theorem c73_format (t formatted : Text) (h : ¬ LoneReturn t) :
    match replaceDocument t formatted with
    | some e => e.apply t = formatted
    | none => t = formatted := by
  unfold replaceDocument
  split
  · next e he =>
    split at he
    · exact absurd he (by simp)
    · injection he with he
      subst he
      unfold Edit.apply
      have h0 : Pos.index ⟨0, 0⟩ t = 0 := seek_zero t
      dsimp only
      rw [h0, (c73_document_end t).mpr h]
      simp
  · next he =>
    split at he
    · next hf => exact hf.symm
    · exact absurd he (by simp)

/-- With such a carriage return, whatever the formatter answers, the end of the old text stays behind the new text. -/
theorem c73_format_fails (t formatted : Text) (h : LoneReturn t) {e : Edit} (he : replaceDocument t formatted = some e) :
    ∃ rest, rest ≠ [] ∧ e.apply t = formatted ++ rest := by
  unfold replaceDocument at he
  split at he
  · exact absurd he (by simp)
  · injection he with he
    subst he
    have h1 := (count_le_breaks t.length t (Nat.le_refl _)).2 h
    have h2 := seek_lt t.length (t.count '\n') (utf16Sum (lastSegment t)) t (Nat.le_refl _) h1
    refine ⟨t.drop ((documentEnd t).index t), ?_, ?_⟩
    · intro hd
      have := List.drop_eq_nil_iff.mp hd
      have h3 : (documentEnd t).index t = seek (t.count '\n') (utf16Sum (lastSegment t)) t := rfl
      omega
    · unfold Edit.apply
      have h0 : Pos.index ⟨0, 0⟩ t = 0 := seek_zero t
      dsimp only
      rw [h0]
      simp

/-! ### The linter -/

theorem takeBytes_some {n : Nat} {t a : Text} (h : takeBytes n t = some a) : ∃ b, t = a ++ b ∧ byteLen a = n := by
  induction t generalizing n a with
  | nil =>
    cases n with
    | zero => rw [takeBytes] at h; injection h with h; subst h; exact ⟨[], rfl, rfl⟩
    | succ n => rw [takeBytes] at h; exact absurd h (by simp)
  | cons c t ih =>
    cases n with
    | zero => rw [takeBytes] at h; injection h with h; subst h; exact ⟨c :: t, rfl, rfl⟩
    | succ n =>
      rw [takeBytes] at h
      split at h
      · next hc =>
        cases ht : takeBytes (n + 1 - c.utf8Size) t with
        | none => rw [ht] at h; exact absurd h (by simp)
        | some a' =>
          rw [ht] at h
          injection h with h
          subst h
          obtain ⟨b, hb, hl⟩ := ih ht
          exact ⟨b, by rw [hb]; rfl, by rw [Positions.byteLen_cons, hl]; omega⟩
      · exact absurd h (by simp)

/-- What a line is without the carriage return before its line feed. -/
def strip (raw : Text) : Text := if raw.getLast? = some '\r' then raw.dropLast else raw

theorem lines_nl {l : Text} (h : '\n' ∉ l) (s : Text) : lines (l ++ '\n' :: s) = strip l :: lines s := by
  unfold lines strip
  rw [linesGo_line h]
  simp

theorem lines_last {l : Text} (h : '\n' ∉ l) : lines l = if l = [] then [] else [l] := by
  unfold lines
  rw [linesGo_last h]
  simp

theorem split_line (t : Text) : '\n' ∉ t ∨ ∃ l s, t = l ++ '\n' :: s ∧ '\n' ∉ l := by
  induction t with
  | nil => exact .inl (by simp)
  | cons c t ih =>
    by_cases hc : c = '\n'
    · exact .inr ⟨[], t, by rw [hc]; rfl, by simp⟩
    · rcases ih with h | ⟨l, s, rfl, hl⟩
      · exact .inl (by rw [List.mem_cons, not_or]; exact ⟨fun e => hc e.symm, h⟩)
      · exact .inr ⟨c :: l, s, rfl, by rw [List.mem_cons, not_or]; exact ⟨fun e => hc e.symm, hl⟩⟩

/-- Which part of a text a line is. -/
theorem lines_get {n : Nat} {t l : Text} (h : (lines t)[n]? = some l) : ∃ before raw rest, t = before ++ raw ++ rest ∧ EndsLine before ∧
    before.count '\n' = n ∧ '\n' ∉ raw ∧ ((rest = [] ∧ l = raw) ∨ (∃ s, rest = '\n' :: s ∧ l = strip raw)) := by
  induction n generalizing t with
  | zero =>
    rcases split_line t with ht | ⟨r, s, rfl, hr⟩
    · rw [lines_last ht] at h
      split at h
      · exact absurd h (by simp)
      · simp at h
        exact ⟨[], t, [], by simp, .inl rfl, rfl, ht, .inl ⟨rfl, h.symm⟩⟩
    · rw [lines_nl hr] at h
      simp at h
      exact ⟨[], r, '\n' :: s, by simp, .inl rfl, rfl, hr, .inr ⟨s, rfl, h.symm⟩⟩
  | succ n ih =>
    rcases split_line t with ht | ⟨r, s, rfl, hr⟩
    · rw [lines_last ht] at h
      split at h <;> exact absurd h (by simp)
    · rw [lines_nl hr] at h
      simp only [List.getElem?_cons_succ] at h
      obtain ⟨before, raw, rest, rfl, he, hn, h1, h2⟩ := ih h
      refine ⟨r ++ '\n' :: before, raw, rest, by simp, ?_, ?_, h1, h2⟩
      · rcases he with rfl | ⟨x, rfl⟩
        · exact .inr ⟨r, rfl⟩
        · exact .inr ⟨r ++ '\n' :: x, by simp⟩
      · rw [List.count_append, List.count_cons_self, List.count_eq_zero.mpr hr]
        omega

theorem strip_prefix (raw : Text) : strip raw <+: raw := by
  unfold strip
  split
  · exact List.dropLast_prefix raw
  · exact List.prefix_refl _

theorem strip_no_return {raw s : Text} (h1 : '\n' ∉ raw) (h : ¬ LoneReturn (raw ++ '\n' :: s)) : '\r' ∉ strip raw := by
  intro hm
  obtain ⟨a, b, hab⟩ := List.append_of_mem hm
  obtain ⟨c, hc⟩ := strip_prefix raw
  have hraw : raw = a ++ '\r' :: (b ++ c) := by rw [← hc, hab]; simp
  by_cases hbc : b ++ c = []
  · have hb := (List.append_eq_nil_iff.mp hbc)
    rw [hbc] at hraw
    unfold strip at hab
    rw [hraw] at hab
    simp at hab
  · refine h ⟨a, b ++ c ++ '\n' :: s, by rw [hraw]; simp, ?_⟩
    cases hx : b ++ c with
    | nil => exact absurd hx hbc
    | cons d x =>
      simp only [List.cons_append, List.head?_cons]
      intro hd
      injection hd with hd
      exact h1 (by rw [hraw, hx, hd]; simp)

/-- A place given by a line and a number of bytes is shown where it is. -/
theorem c73_position {t : Text} (h : ¬ LoneReturn t) {line column : Nat} {p : Pos} (hp : rubocopPosition t line column = some p) :
    ∃ before w, Place t line column before w ∧ p.index t = (before ++ w).length := by
  unfold rubocopPosition at hp
  split at hp
  · exact absurd hp (by simp)
  · next hline =>
    split at hp
    · exact absurd hp (by simp)
    · next l hl =>
      split at hp
      · exact absurd hp (by simp)
      · next w hw =>
        injection hp with hp
        subst hp
        obtain ⟨before, raw, rest, rfl, he, hn, h1, h2⟩ := lines_get hl
        obtain ⟨b, hb, hlen⟩ := takeBytes_some hw
        have hlone : ¬ LoneReturn (raw ++ rest) := fun hx => h (by rw [List.append_assoc]; exact lone_append hx)
        have hr : '\r' ∉ l ∧ l <+: raw := by
          rcases h2 with ⟨rfl, rfl⟩ | ⟨s, rfl, rfl⟩
          · rw [List.append_nil] at hlone
            exact ⟨no_return h1 hlone, List.prefix_refl _⟩
          · exact ⟨strip_no_return h1 hlone, strip_prefix raw⟩
        obtain ⟨c, hc⟩ := hr.2
        have hwraw : raw = w ++ (b ++ c) := by rw [← hc, hb]; simp
        have hw1 : '\n' ∉ w := fun hx => h1 (by rw [hwraw]; exact List.mem_append_left _ hx)
        have hw2 : '\r' ∉ w := fun hx => hr.1 (by rw [hb]; exact List.mem_append_left _ hx)
        have hbl : ¬ LoneReturn before := not_lone_left he (by rw [List.append_assoc] at h; exact h)
        refine ⟨before, w, ⟨⟨b ++ c ++ rest, by rw [hwraw]; simp⟩, he, by omega, hw1, hlen⟩, ?_⟩
        unfold Pos.index
        dsimp only
        rw [hwraw, List.append_assoc, List.append_assoc, ← hn]
        have := seek_before before.length before (w ++ (b ++ c ++ rest)) 0 (utf16Sum w) (Nat.le_refl _) he hbl
        rw [Nat.add_zero] at this
        rw [this, seek_line _ hw1 hw2, List.length_append]

theorem lines_skip (k : Nat) : ∀ (before r : Text), before.length ≤ k → EndsLine before → (lines (before ++ r))[before.count '\n']? = (lines r)[0]? := by
  induction k with
  | zero =>
    intro before r hk _
    have : before = [] := List.length_eq_zero_iff.mp (by omega)
    subst this
    rfl
  | succ k ih =>
    intro before r hk he
    rcases split_line before with hb | ⟨l, s, rfl, hl⟩
    · rcases he with rfl | ⟨x, rfl⟩
      · rfl
      · exact absurd (by simp) hb
    · have hes : EndsLine s := by
        rcases he with he | ⟨x, hx⟩
        · exact absurd he (by simp)
        · rcases List.eq_nil_or_concat s with rfl | ⟨s', c, rfl⟩
          · exact .inl rfl
          · rw [List.concat_eq_append] at hx ⊢
            have h2 : (l ++ '\n' :: s') ++ [c] = x ++ ['\n'] := by rw [← hx]; simp
            have h3 := (List.append_inj' h2 rfl).2
            injection h3 with h3
            exact .inr ⟨s', by rw [h3]⟩
      rw [List.append_assoc, List.cons_append, lines_nl hl, List.count_append, List.count_cons_self, List.count_eq_zero.mpr hl,
        show 0 + (s.count '\n' + 1) = s.count '\n' + 1 by omega, List.getElem?_cons_succ]
      rw [List.length_append, List.length_cons] at hk
      exact ih s r (by omega) hes

/-- Every place in a line that is not empty at the end of the text, and not between `\r` and `\n`, is shown. -/
theorem c73_position_complete {t : Text} {line column : Nat} {before w : Text} (hp : Place t line column before w) (hr : '\r' ∉ w) (hne : before ≠ t) :
    rubocopPosition t line column = some ⟨line - 1, utf16Sum w⟩ := by
  obtain ⟨⟨rest, ht⟩, he, hn, h1, hb⟩ := hp
  subst ht
  have hl : ∃ l, (lines (before ++ w ++ rest))[line - 1]? = some l ∧ w <+: l := by
    rw [List.append_assoc, show line - 1 = before.count '\n' by omega, lines_skip before.length before _ (Nat.le_refl _) he]
    rcases split_line rest with hrest | ⟨l, s, rfl, hl⟩
    · have hwr : '\n' ∉ w ++ rest := by rw [List.mem_append, not_or]; exact ⟨h1, hrest⟩
      rw [lines_last hwr, if_neg]
      · exact ⟨w ++ rest, by simp, List.prefix_append _ _⟩
      · intro hx
        rw [List.append_assoc, hx, List.append_nil] at hne
        exact hne rfl
    · have hwl : '\n' ∉ w ++ l := by rw [List.mem_append, not_or]; exact ⟨h1, hl⟩
      rw [← List.append_assoc, lines_nl hwl]
      refine ⟨strip (w ++ l), by simp, ?_⟩
      unfold strip
      split
      · next hlast =>
        rcases List.eq_nil_or_concat l with rfl | ⟨l', c, rfl⟩
        · rw [List.append_nil] at hlast
          exact absurd (List.mem_of_getLast? hlast) hr
        · rw [List.concat_eq_append, ← List.append_assoc, List.dropLast_concat]
          exact List.prefix_append _ _
      · exact List.prefix_append _ _
  obtain ⟨l, hl, c, rfl⟩ := hl
  unfold rubocopPosition
  rw [if_neg (by omega), hl]
  dsimp only
  rw [← hb, takeBytes_append]

/-- A report is shown with one range for each offence, each at the places that its columns mean as numbers of bytes. -/
theorem c73_report {t : Text} (h : ¬ LoneReturn t) {ls : List Location} {rs : List (Pos × Pos)} (hr : reportRanges t ls = some rs) :
    rs.length = ls.length ∧ ∀ (i : Nat) (l : Location) (r : Pos × Pos), ls[i]? = some l → rs[i]? = some r →
      (∃ before w, Place t l.startLine (l.startColumn - 1) before w ∧ r.1.index t = (before ++ w).length) ∧
      (∃ before w, Place t l.lastLine l.lastColumn before w ∧ r.2.index t = (before ++ w).length) := by
  induction ls generalizing rs with
  | nil => rw [reportRanges] at hr; injection hr with hr; subst hr; exact ⟨rfl, fun i l r hl => absurd hl (by simp)⟩
  | cons l ls ih =>
    rw [reportRanges] at hr
    split at hr
    · exact absurd hr (by simp)
    · next r ho =>
      split at hr
      · exact absurd hr (by simp)
      · next rs' hrs =>
        injection hr with hr
        subst hr
        obtain ⟨hlen, hall⟩ := ih hrs
        refine ⟨by simp [hlen], fun i l' r' hl' hr' => ?_⟩
        cases i with
        | zero =>
          simp at hl' hr'
          subst hl'; subst hr'
          unfold offenceRange at ho
          split at ho
          · exact absurd ho (by simp)
          · next start hs =>
            split at ho
            · exact absurd ho (by simp)
            · next stop hst =>
              injection ho with ho
              subst ho
              exact ⟨c73_position h hs, c73_position h hst⟩
        | succ i =>
          simp at hl' hr'
          exact hall i l' r' hl' hr'

/-- RuboCop counts characters. For `é = x` it reports column 5 (from 1) for `x`; that is shown one character too early. -/
theorem c73_characters_fails : rubocopPosition "é = x".toList 1 4 = some ⟨0, 3⟩ ∧ "é = x".toList.take (Pos.index ⟨0, 3⟩ "é = x".toList) = "é =".toList := by
  decide +kernel

/-- One column that is not at the start of a character, as RuboCop can report it for `éa`, loses all other offences. -/
theorem c73_one_lost_fails : offenceRange "x\néa\n".toList ⟨1, 1, 1, 1⟩ = some (⟨0, 0⟩, ⟨0, 1⟩) ∧
    reportRanges "x\néa\n".toList [⟨1, 1, 1, 1⟩, ⟨2, 1, 2, 1⟩] = none := by decide +kernel

/-- The offence that a linter reports for an empty file, in line 1, is an error. -/
theorem c73_empty_fails : offenceRange [] ⟨1, 1, 1, 0⟩ = none := by decide +kernel

theorem c73_example : rubocopPosition "a\r\n😀 b\n".toList 2 5 = some ⟨1, 3⟩ ∧ Pos.index ⟨1, 3⟩ "a\r\n😀 b\n".toList = 5 ∧
    replaceDocument "a \r\nb".toList "a\r\nb\r\n".toList = some ⟨⟨0, 0⟩, ⟨1, 1⟩, "a\r\nb\r\n".toList⟩ ∧
    Edit.apply ⟨⟨0, 0⟩, ⟨1, 1⟩, "a\r\nb\r\n".toList⟩ "a \r\nb".toList = "a\r\nb\r\n".toList := by decide +kernel

theorem c73_return_example : Edit.apply ⟨⟨0, 0⟩, documentEnd "a\rb".toList, "c".toList⟩ "a\rb".toList = "c\rb".toList := by decide +kernel

/-! ### Typing a line feed -/

mutual
theorem visit_spec (n : Node) (a s : Bool) : ((visit n (a, s)).1 = true ↔ a = true ∨ AssignsCond n) ∧
    ((visit n (a, s)).1 = false → ((visit n (a, s)).2 = true ↔ s = true ∨ HasCond n)) := by
  cases n with
  | cond kids =>
    rw [visit]
    obtain ⟨h1, h2⟩ := visitAll_spec kids a (s || !a)
    constructor
    · rw [h1]
      constructor
      · rintro (h | ⟨n, hn, h⟩)
        · exact .inl h
        · exact .inr (.cond kids n hn h)
      · rintro (h | h)
        · exact .inl h
        · cases h with
          | cond _ n hn h => exact .inr ⟨n, hn, h⟩
    · intro hf
      have ha : a = false := by
        cases a with
        | false => rfl
        | true => rw [h1.mpr (.inl rfl)] at hf; exact absurd hf (by simp)
      rw [h2 hf]
      exact ⟨fun _ => .inr (.here kids), fun _ => .inl (by simp [ha])⟩
  | write v =>
    rw [visit]
    obtain ⟨h1, h2⟩ := visit_spec v (a || v.isCond) s
    constructor
    · rw [h1]
      constructor
      · rintro (h | h)
        · rw [Bool.or_eq_true] at h
          rcases h with h | h
          · exact .inl h
          · cases v with
            | cond kids => exact .inr (.here kids)
            | write _ => exact absurd h (by simp [Node.isCond])
            | other _ => exact absurd h (by simp [Node.isCond])
        · exact .inr (.write v h)
      · rintro (h | h)
        · exact .inl (by simp [h])
        · cases h with
          | here kids => exact .inl (by simp [Node.isCond])
          | write _ h => exact .inr h
    · intro hf
      rw [h2 hf]
      constructor
      · rintro (h | h)
        · exact .inl h
        · exact .inr (.write v h)
      · rintro (h | h)
        · exact .inl h
        · cases h with
          | write _ h => exact .inr h
  | other kids =>
    rw [visit]
    obtain ⟨h1, h2⟩ := visitAll_spec kids a s
    constructor
    · rw [h1]
      constructor
      · rintro (h | ⟨n, hn, h⟩)
        · exact .inl h
        · exact .inr (.other kids n hn h)
      · rintro (h | h)
        · exact .inl h
        · cases h with
          | other _ n hn h => exact .inr ⟨n, hn, h⟩
    · intro hf
      rw [h2 hf]
      constructor
      · rintro (h | ⟨n, hn, h⟩)
        · exact .inl h
        · exact .inr (.other kids n hn h)
      · rintro (h | h)
        · exact .inl h
        · cases h with
          | other _ n hn h => exact .inr ⟨n, hn, h⟩
theorem visitAll_spec (ns : List Node) (a s : Bool) : ((visitAll ns (a, s)).1 = true ↔ a = true ∨ ∃ n ∈ ns, AssignsCond n) ∧
    ((visitAll ns (a, s)).1 = false → ((visitAll ns (a, s)).2 = true ↔ s = true ∨ ∃ n ∈ ns, HasCond n)) := by
  cases ns with
  | nil => simp [visitAll]
  | cons n ns =>
    rw [visitAll]
    obtain ⟨h1, h2⟩ := visit_spec n a s
    obtain ⟨h3, h4⟩ := visitAll_spec ns (visit n (a, s)).1 (visit n (a, s)).2
    constructor
    · rw [h3, h1]
      simp only [List.mem_cons, exists_eq_or_imp, or_assoc]
    · intro hf
      have hv : (visit n (a, s)).1 = false := by
        cases hv : (visit n (a, s)).1 with
        | false => rfl
        | true => rw [h3.mpr (.inl hv)] at hf; exact absurd hf (by simp)
      rw [h4 hf, h2 hv]
      simp only [List.mem_cons, exists_eq_or_imp, or_assoc]
end

/-- The look at the tree finds a conditional anywhere in the text, unless one is assigned to a variable anywhere. -/
theorem c73_tree (n : Node) : shouldAddEndAst n = true ↔ HasCond n ∧ ¬ AssignsCond n := by
  unfold shouldAddEndAst
  obtain ⟨h1, h2⟩ := visit_spec n false false
  simp only [Bool.and_eq_true, Bool.not_eq_true']
  constructor
  · rintro ⟨ha, hb⟩
    have := (h2 hb).mp ha
    exact ⟨this.resolve_left (by simp), fun hc => by rw [h1.mpr (.inr hc)] at hb; exact absurd hb (by simp)⟩
  · rintro ⟨ha, hb⟩
    have hf : (visit n (false, false)).1 = false := by
      cases hv : (visit n (false, false)).1 with
      | false => rfl
      | true => exact absurd ((h1.mp hv).resolve_left (by simp)) hb
    exact ⟨(h2 hf).mpr (.inr ha), hf⟩

/-- An edit that is made on a line feed adds one line with `end` at the cursor, indented by the blanks and tabs that the line before
starts with, and changes nothing else. -/
theorem c73_end {C : Chars} {parse : Text → Node} {t : Text} {p : Pos} {e : Edit} (h : onType C parse t p = some e) :
    ∃ indent rest, (lines t)[p.line - 1]? = some (indent ++ rest) ∧ (∀ c ∈ indent, c = ' ' ∨ c = '\t') ∧
      (∀ c, rest.head? = some c → c ≠ ' ' ∧ c ≠ '\t') ∧
      e.apply t = t.take (p.index t) ++ ('\n' :: indent ++ "end".toList) ++ t.drop (p.index t) := by
  unfold onType at h
  split at h
  · exact absurd h (by simp)
  · split at h
    · exact absurd h (by simp)
    · next previous hl =>
      dsimp only at h
      split at h
      · injection h with h
        subst h
        refine ⟨indentation previous, previous.dropWhile (fun c => c = ' ' ∨ c = '\t'), ?_, ?_, ?_, rfl⟩
        · rw [hl, indentation, List.takeWhile_append_dropWhile]
        · intro c hc
          have := List.all_eq_true.mp (List.all_takeWhile (p := fun c => decide (c = ' ' ∨ c = '\t')) (l := previous)) c hc
          simpa using this
        · intro c hc
          have := List.head?_dropWhile_not (fun c => decide (c = ' ' ∨ c = '\t')) previous
          rw [hc] at this
          simpa using this
      · exact absurd h (by simp)

/-- In a text with a conditional that is complete, or anything else that Prism reads as one, and none that is assigned to a variable,
`end` is added after every line on which a line feed is typed. -/
theorem c73_everywhere_fails {C : Chars} {parse : Text → Node} {t : Text} (hc : HasCond (parse t)) (ha : ¬ AssignsCond (parse t)) {p : Pos} {previous : Text}
    (hp : 0 < p.line) (hl : (lines t)[p.line - 1]? = some previous) :
    onType C parse t p = some ⟨p, p, '\n' :: indentation previous ++ "end".toList⟩ := by
  unfold onType
  rw [if_neg (by omega), hl]
  dsimp only
  rw [(c73_tree _).mpr ⟨hc, ha⟩, Bool.or_true, if_pos rfl]

/-- ASCII. -/
def ascii : Chars where
  ws c := c == ' ' || c == '\t' || c == '\r'
  alpha c := c.isAlpha
  alnum c := c.isAlphanum

/-- A line that has nothing but a comment does not ask for `end`, whatever is white space. -/
theorem c73_comment (C : Chars) (blank comment : Text) (hb : ∀ c ∈ blank, C.ws c = true) (hh : C.ws '#' = false) :
    shouldAddEndKeyword C (blank ++ '#' :: comment) = false := by
  have h1 : (blank ++ '#' :: comment).dropWhile C.ws = '#' :: comment := by
    rw [List.dropWhile_append_of_pos hb, List.dropWhile_cons_of_neg (by simp [hh])]
  have h2 : ∃ x, trim C (blank ++ '#' :: comment) = '#' :: x := by
    unfold trim
    rw [h1, List.reverse_cons]
    have h3 : ∀ r : Text, ∃ x, ((r ++ ['#']).dropWhile C.ws).reverse = '#' :: x := by
      intro r
      induction r with
      | nil => exact ⟨[], by simp [hh]⟩
      | cons c r ih =>
        rw [List.cons_append, List.dropWhile_cons]
        split
        · exact ih
        · exact ⟨r.reverse ++ [c], by simp⟩
    exact h3 _
  obtain ⟨x, hx⟩ := h2
  unfold shouldAddEndKeyword
  rw [hx]
  simp [trim]

/-- `end` is added after lines that need none, whatever the tree of the text is. -/
theorem c73_needless_fails (parse : Text → Node) (line : Text)
    (h : line ∈ ["puts 1 if x\n".toList, "def f = 1\n".toList, "class A; end\n".toList, "def f; end\n".toList]) :
    onType ascii parse line ⟨1, 0⟩ = some ⟨⟨1, 0⟩, ⟨1, 0⟩, "\nend".toList⟩ := by
  have key : shouldAddEndKeyword ascii (trim ascii ((lines line).headD [])) = true ∧ (lines line)[0]? = some ((lines line).headD []) ∧
      '\n' :: indentation ((lines line).headD []) ++ "end".toList = "\nend".toList := by
    revert h; revert line; decide +kernel
  unfold onType
  rw [if_neg (by decide), show Pos.line ⟨1, 0⟩ - 1 = 0 by rfl, key.2.1]
  dsimp only
  rw [key.1, Bool.true_or, Bool.true_or, if_pos rfl, key.2.2]

/-- And none after lines that need it, whatever the tree is, as long as it has no conditional. -/
theorem c73_missing_fails (parse : Text → Node) (line : Text) (h : line ∈ ["private def f\n".toList, "x ||= begin\n".toList, "\"#{x}\".each do\n".toList])
    (hc : ∀ t, ¬ HasCond (parse t)) : onType ascii parse line ⟨1, 0⟩ = none := by
  have key : shouldAddEndKeyword ascii (trim ascii ((lines line).headD [])) = false ∧ (lines line)[0]? = some ((lines line).headD []) := by
    revert h; revert line; decide +kernel
  have tree : ∀ t, shouldAddEndAst (parse t) = false := by
    intro t
    cases ht : shouldAddEndAst (parse t) with
    | false => rfl
    | true => exact absurd ((c73_tree _).mp ht).1 (hc t)
  unfold onType
  rw [if_neg (by decide), show Pos.line ⟨1, 0⟩ - 1 = 0 by rfl, key.2]
  dsimp only
  rw [key.1, tree, tree]
  rfl

theorem c73_keywords : shouldAddEndKeyword ascii "  if x == y".toList = true ∧ shouldAddEndKeyword ascii "5.times do |i|".toList = true ∧
    shouldAddEndKeyword ascii "return if x".toList = false ∧ shouldAddEndKeyword ascii "x = 1".toList = false ∧
    shouldAddEndKeyword ascii "x= if y".toList = false ∧ shouldAddEndKeyword ascii "x== if y".toList = true := by decide +kernel

end Verif.Edits
