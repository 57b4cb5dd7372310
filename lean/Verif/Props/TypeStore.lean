import Verif.Lemmas.TypeStore
/-!
C20 – type lookups answer from the latest facts only and report ambiguity honestly.
-/
namespace Verif.TypeStore
open Verif.Store

theorem subjectMatches_iff {a : Fact} (hv : subjectOk a = true) (subj : Subject) : subjectMatches a subj = true ↔ a.subject = subj := by
  cases subj with
  | named n => simp only [subjectMatches, decide_eq_true_eq, kNamed_iff]
  | expr f i j =>
    unfold subjectOk at hv
    unfold subjectMatches kNamed
    cases hs : a.subject with
    | named n => simp
    | expr f' i' j' =>
      rw [hs] at hv
      simp only [decide_eq_true_eq] at hv
      simp only [Option.isNone_none, Bool.true_and, decide_eq_true_eq, Subject.expr.injEq]
      omega

/-- The facts a lookup starts from are those about the subject. -/
theorem mem_lookup {s : State} {log : List (Nat × Fact)} (h : Inv s log) (subj : Subject) (a : Fact) :
    a ∈ (s.arena.clone (idsFor s subj)).filter (fun a => subjectMatches a subj) ↔ a ∈ log.map (·.2) ∧ a.subject = subj := by
  have hval : ∀ a ∈ log.map (·.2), subjectOk a = true := by
    intro a ha
    obtain ⟨x, hx, rfl⟩ := List.mem_map.mp ha
    exact h.valid x hx
  rw [List.mem_filter]
  cases subj with
  | named n =>
    rw [show idsFor s (.named n) = s.byNamed n from rfl, (h.named.clone h.arena n).mem_iff, List.mem_filter]
    constructor
    · rintro ⟨⟨h1, _⟩, h2⟩; exact ⟨h1, (subjectMatches_iff (hval a h1) _).mp h2⟩
    · rintro ⟨h1, h2⟩
      refine ⟨⟨h1, ?_⟩, (subjectMatches_iff (hval a h1) _).mpr h2⟩
      simp [hasKey, kNamed_iff, h2]
  | expr f i j =>
    rw [show idsFor s (.expr f i j) = s.byFile f from rfl, (h.file.clone h.arena f).mem_iff, List.mem_filter]
    constructor
    · rintro ⟨⟨h1, _⟩, h2⟩; exact ⟨h1, (subjectMatches_iff (hval a h1) _).mp h2⟩
    · rintro ⟨h1, h2⟩
      refine ⟨⟨h1, ?_⟩, (subjectMatches_iff (hval a h1) _).mpr h2⟩
      have := (subjectOk_iff.mp (hval a h1)) f i j h2
      simp [hasKey, kFile, this.1]

theorem foldl_max (l : List Nat) (a : Nat) : (l.foldl Nat.max a = a ∨ l.foldl Nat.max a ∈ l) ∧ a ≤ l.foldl Nat.max a ∧ ∀ x ∈ l, x ≤ l.foldl Nat.max a := by
  induction l generalizing a with
  | nil => simp
  | cons b l ih =>
    obtain ⟨h1, h2, h3⟩ := ih (Nat.max a b)
    rw [List.foldl_cons]
    have hab : Nat.max a b = a ∨ Nat.max a b = b := by
      rcases Nat.le_total a b with h | h
      · right; exact Nat.max_eq_right h
      · left; exact Nat.max_eq_left h
    have ha : a ≤ Nat.max a b := Nat.le_max_left a b
    have hb : b ≤ Nat.max a b := Nat.le_max_right a b
    refine ⟨?_, by omega, ?_⟩
    · rcases h1 with h1 | h1
      · rcases hab with h | h
        · left; rw [h1, h]
        · right; rw [h1, h]; simp
      · right; simp [h1]
    · intro x hx
      rcases List.mem_cons.mp hx with rfl | hx
      · omega
      · exact h3 x hx

theorem maxOf_none {l : List Nat} (h : maxOf l = none) : l = [] := by
  cases l with
  | nil => rfl
  | cons a l => simp [maxOf] at h

theorem maxOf_some {l : List Nat} {m : Nat} (h : maxOf l = some m) : m ∈ l ∧ ∀ x ∈ l, x ≤ m := by
  cases l with
  | nil => simp [maxOf] at h
  | cons a l =>
    simp only [maxOf, Option.some.injEq] at h
    obtain ⟨h1, h2, h3⟩ := foldl_max l a
    rw [h] at h1 h2 h3
    refine ⟨?_, ?_⟩
    · rcases h1 with rfl | h1 <;> simp_all
    · intro x hx
      rcases List.mem_cons.mp hx with rfl | hx
      · exact h2
      · exact h3 x hx

theorem sameCand_iff {a b : Fact} : sameCand a b = true ↔ Agree a b := by simp [sameCand, Agree]

theorem dedupFrom_sublist (prev : Fact) (l : List Fact) : (dedupFrom sameCand prev l).Sublist l := by
  induction l generalizing prev with
  | nil => exact List.Sublist.slnil
  | cons b l ih =>
    rw [dedupFrom]
    split
    · exact (ih prev).cons b
    · exact (ih b).cons_cons b

theorem dedupBy_sublist (l : List Fact) : (dedupBy sameCand l).Sublist l := by
  cases l with
  | nil => exact List.Sublist.slnil
  | cons a l => exact (dedupFrom_sublist a l).cons_cons a

theorem dedupFrom_cover (prev : Fact) (l : List Fact) : ∀ b ∈ l, Agree b prev ∨ ∃ a ∈ dedupFrom sameCand prev l, Agree b a := by
  induction l generalizing prev with
  | nil => simp
  | cons c l ih =>
    intro b hb
    rw [dedupFrom]
    by_cases hc : sameCand c prev = true
    · rw [if_pos hc]
      rcases List.mem_cons.mp hb with rfl | hb
      · exact .inl (sameCand_iff.mp hc)
      · exact ih prev b hb
    · rw [if_neg hc]
      right
      rcases List.mem_cons.mp hb with rfl | hb
      · exact ⟨b, by simp, rfl, rfl⟩
      · rcases ih c b hb with h | ⟨a, h1, h2⟩
        · exact ⟨c, by simp, h⟩
        · exact ⟨a, by simp [h1], h2⟩

theorem dedupBy_cover (l : List Fact) : ∀ b ∈ l, ∃ a ∈ dedupBy sameCand l, Agree b a := by
  cases l with
  | nil => simp
  | cons x l =>
    intro b hb
    rw [dedupBy]
    rcases List.mem_cons.mp hb with rfl | hb
    · exact ⟨b, by simp, rfl, rfl⟩
    · rcases dedupFrom_cover x l b hb with h | ⟨a, h1, h2⟩
      · exact ⟨x, by simp, h⟩
      · exact ⟨a, by simp [h1], h2⟩

theorem dedupFrom_head {prev y : Fact} {l rest : List Fact} (h : dedupFrom sameCand prev l = y :: rest) : ¬ Agree y prev := by
  induction l generalizing prev with
  | nil => simp [dedupFrom] at h
  | cons c l ih =>
    rw [dedupFrom] at h
    split at h
    · exact ih h
    · rename_i hc
      have := (List.cons.inj h).1
      subst this
      exact fun hag => hc (sameCand_iff.mpr hag)

/-- **C20**: after any history of valid calls the store has not panicked, and the type of any subject at any offset is what the
facts present for that file prescribe: none without a fact at or before the offset; the fact at the latest starting position
when all facts there agree; otherwise ambiguous, listing every distinct candidate and nothing else. -/
theorem c20_type_at_spec (str : Nat → List Nat) (ops : List Op) (hv : ∀ op ∈ ops, op.Valid) :
    ∃ s, run ops init = .ok s ∧ ∀ subj f off, SpecTypeAt (logOf ops) subj f off (typeAt str s subj f off) := by
  obtain ⟨s, log, h1, h2, h3, _⟩ := run_ok ops hv inv_init
  have h3 : log.map (·.2) = logOf ops := h3
  refine ⟨s, h1, ?_⟩
  intro subj f off
  have hmem := mem_lookup h2 subj
  rw [h3] at hmem
  rw [typeAt]
  generalize (s.arena.clone (idsFor s subj)).filter (fun a => subjectMatches a subj) = facts at hmem
  have hB : ∀ a, Before (logOf ops) subj f off a ↔ a ∈ facts ∧ a.file = f ∧ a.start ≤ off := by
    intro a; rw [hmem]; unfold Before; exact ⟨fun ⟨a, b, c, d⟩ => ⟨⟨a, b⟩, c, d⟩, fun ⟨⟨a, b⟩, c, d⟩ => ⟨a, b, c, d⟩⟩
  cases hmax : maxOf ((facts.filter (fun a => decide (a.file = f ∧ a.start ≤ off))).map Fact.start) with
  | none =>
    intro a ha
    rw [hB] at ha
    have := maxOf_none hmax
    rw [List.map_eq_nil_iff, List.filter_eq_nil_iff] at this
    exact this a ha.1 (by simpa using ha.2)
  | some latest =>
    obtain ⟨m1, m2⟩ := maxOf_some hmax
    simp only [List.mem_map, List.mem_filter, decide_eq_true_eq] at m1 m2
    have hle : ∀ b, Before (logOf ops) subj f off b → b.start ≤ latest := by
      intro b hb; rw [hB] at hb; exact m2 _ ⟨b, hb, rfl⟩
    obtain ⟨a0, ha0, hs0⟩ := m1
    have hL : ∀ a, Latest (logOf ops) subj f off a ↔ a ∈ facts ∧ a.file = f ∧ a.start = latest := by
      intro a
      constructor
      · rintro ⟨hb, hall⟩
        have h4 := hall a0 ((hB a0).mpr ha0)
        have h5 := hle a hb
        rw [hB] at hb
        exact ⟨hb.1, hb.2.1, by omega⟩
      · rintro ⟨h4, h5, h6⟩
        refine ⟨(hB a).mpr ⟨h4, h5, by have := ha0.2.2; omega⟩, ?_⟩
        intro b hb
        rw [h6]; exact hle b hb
    have hC : ∀ a, a ∈ stableSort (candLe str) (facts.filter (fun a => decide (a.file = f ∧ a.start = latest)))
        ↔ Latest (logOf ops) subj f off a := by
      intro a; rw [mem_stableSort, List.mem_filter, hL]; simp
    dsimp only
    generalize stableSort (candLe str) (facts.filter (fun a => decide (a.file = f ∧ a.start = latest))) = C at hC ⊢
    cases C with
    | nil =>
      have := (hC a0).mpr ((hL a0).mpr ⟨ha0.1, ha0.2.1, hs0⟩)
      simp at this
    | cons x l =>
      rw [show dedupBy sameCand (x :: l) = x :: dedupFrom sameCand x l from rfl]
      cases hd : dedupFrom sameCand x l with
      | nil =>
        refine ⟨(hC x).mp (by simp), ?_⟩
        intro b hb
        rcases List.mem_cons.mp ((hC b).mpr hb) with rfl | hb
        · exact ⟨rfl, rfl⟩
        · rcases dedupFrom_cover x l b hb with h | ⟨a, ha, _⟩
          · exact h
          · rw [hd] at ha; simp at ha
      | cons y rest =>
        have hsub := dedupFrom_sublist x l
        rw [hd] at hsub
        refine ⟨⟨y, x, (hC y).mp (by simp [hsub.mem (show y ∈ y :: rest by simp)]), (hC x).mp (by simp), dedupFrom_head hd⟩, ?_, ?_⟩
        · intro a ha
          rw [← hC]
          rcases List.mem_cons.mp ha with rfl | ha
          · simp
          · exact List.mem_cons_of_mem _ (hsub.mem ha)
        · intro b hb
          obtain ⟨a, h4, h5⟩ := dedupBy_cover (x :: l) b ((hC b).mpr hb)
          rw [dedupBy, hd] at h4
          exact ⟨a, h4, h5.1.symm, h5.2.symm⟩

/-! ### no candidate is listed twice -/

theorem lexLe_antisymm : ∀ (a b : List Nat), lexLe a b = true → lexLe b a = true → a = b
  | [], [], _, _ => rfl
  | [], _ :: _, _, h => by simp [lexLe] at h
  | _ :: _, [], h, _ => by simp [lexLe] at h
  | x :: a, y :: b, h1, h2 => by
    rw [lexLe] at h1 h2
    by_cases hlt : x < y
    · rw [if_neg (by omega), if_neg (by omega)] at h2; simp at h2
    · rw [if_neg hlt] at h1
      by_cases he : x = y
      · subst he
        rw [if_pos rfl] at h1
        rw [if_neg hlt, if_pos rfl] at h2
        rw [lexLe_antisymm a b h1 h2]
      · rw [if_neg he] at h1; simp at h1

theorem candLe_order (str : Nat → List Nat) : IsOrder (candLe str) := by
  refine ⟨?_, ?_⟩
  · intro a b
    unfold candLe
    by_cases h : str a.ty = str b.ty
    · rw [if_pos h, if_pos h.symm]; simp; omega
    · rw [if_neg h, if_neg (fun e => h e.symm)]; exact (leBy_order (fun x : Fact => str x.ty)).total a b
  · intro a b c h1 h2
    unfold candLe at *
    by_cases hab : str a.ty = str b.ty
    · by_cases hbc : str b.ty = str c.ty
      · rw [if_pos hab] at h1; rw [if_pos hbc] at h2; rw [if_pos (hab.trans hbc)]
        simp only [decide_eq_true_eq] at *; omega
      · rw [if_neg hbc] at h2; rw [hab, if_neg hbc]; exact h2
    · rw [if_neg hab] at h1
      by_cases hbc : str b.ty = str c.ty
      · rw [← hbc, if_neg hab]; exact h1
      · rw [if_neg hbc] at h2
        have h3 := (leBy_order (fun x : Fact => str x.ty)).trans a b c h1 h2
        by_cases hac : str a.ty = str c.ty
        · exfalso
          rw [← hac] at h2
          exact hab (lexLe_antisymm _ _ h1 h2)
        · rw [if_neg hac]; exact h3

theorem dedupFrom_distinct {str : Nat → List Nat} (hinj : ∀ a b, str a = str b → a = b) (x : Fact) (l : List Fact)
    (hs : Sorted (candLe str) (x :: l)) :
    (∀ b ∈ dedupFrom sameCand x l, ¬ Agree b x) ∧ (dedupFrom sameCand x l).Pairwise (fun a b => ¬ Agree a b) := by
  induction l generalizing x with
  | nil => exact ⟨by simp [dedupFrom], List.Pairwise.nil⟩
  | cons c l ih =>
    have hs' : List.Pairwise (fun a b => candLe str a b = true) (x :: c :: l) := hs
    rw [List.pairwise_cons, List.pairwise_cons] at hs'
    obtain ⟨hx, hc, hl⟩ := hs'
    rw [dedupFrom]
    by_cases hcx : sameCand c x = true
    · rw [if_pos hcx]
      exact ih x (List.pairwise_cons.mpr ⟨fun b hb => hx b (by simp [hb]), hl⟩)
    · rw [if_neg hcx]
      obtain ⟨h1, h2⟩ := ih c (List.pairwise_cons.mpr ⟨hc, hl⟩)
      refine ⟨?_, ?_⟩
      · intro b hb hag
        rcases List.mem_cons.mp hb with rfl | hb
        · exact hcx (sameCand_iff.mpr hag)
        · have hcb := hc b ((dedupFrom_sublist c l).mem hb)
          have hxc := hx c (by simp)
          have hbx : candLe str b x = true := by
            unfold candLe; rw [hag.1, if_pos rfl, hag.2]; simp
          have hcx' := (candLe_order str).trans c b x hcb hbx
          refine hcx (sameCand_iff.mpr ?_)
          have hty : str c.ty = str x.ty := by
            unfold candLe at hxc hcx'
            by_cases he : str c.ty = str x.ty
            · exact he
            · rw [if_neg he] at hcx'
              rw [if_neg (fun e => he e.symm)] at hxc
              exact lexLe_antisymm _ _ hcx' hxc
          unfold candLe at hxc hcx'
          rw [if_pos hty] at hcx'
          rw [if_pos hty.symm] at hxc
          simp only [decide_eq_true_eq] at hxc hcx'
          exact ⟨hinj _ _ hty, by omega⟩
      · rw [List.pairwise_cons]
        exact ⟨fun b hb hag => h1 b hb ⟨hag.1.symm, hag.2.symm⟩, h2⟩

/-- **C20**: when different types have different texts, an ambiguous answer lists no candidate twice, in the order of text and
provenance. -/
theorem c20_ambiguous_distinct (str : Nat → List Nat) (hinj : ∀ a b, str a = str b → a = b) (s : State) (subj : Subject)
    (f off : Nat) (l : List Fact) (h : typeAt str s subj f off = .ambiguous l) :
    2 ≤ l.length ∧ l.Pairwise (fun a b => ¬ Agree a b) ∧ l.Pairwise (fun a b => candLe str a b = true) := by
  rw [typeAt] at h
  split at h
  · simp at h
  · rename_i latest _
    have hs := stableSort_sorted (candLe_order str)
      (((s.arena.clone (idsFor s subj)).filter (fun a => subjectMatches a subj)).filter (fun a => decide (a.file = f ∧ a.start = latest)))
    generalize stableSort (candLe str)
      (((s.arena.clone (idsFor s subj)).filter (fun a => subjectMatches a subj)).filter (fun a => decide (a.file = f ∧ a.start = latest))) = C at h hs
    cases C with
    | nil => simp [dedupBy] at h
    | cons x C =>
      have hsub : List.Pairwise (fun a b => candLe str a b = true) (dedupBy sameCand (x :: C)) :=
        List.Pairwise.sublist (dedupBy_sublist (x :: C)) hs
      obtain ⟨h1, h2⟩ := dedupFrom_distinct hinj x C hs
      rw [dedupBy] at h hsub
      cases hd : dedupFrom sameCand x C with
      | nil => rw [hd] at h; simp at h
      | cons y rest =>
        rw [hd] at h hsub h1 h2
        simp only [Resolution.ambiguous.injEq] at h
        subst h
        refine ⟨by simp, ?_, hsub⟩
        rw [List.pairwise_cons]
        exact ⟨fun b hb hag => h1 b hb ⟨hag.1.symm, hag.2.symm⟩, h2⟩

/-! ### facts of a subject -/

/-- **C20**: the facts listed for a subject and for a file are exactly those present; in a store that is only ever replaced and
pruned (never appended to with `add`) the facts of a named subject come in file, position and provenance order. -/
theorem c20_facts_reflect_latest (ops : List Op) (hv : ∀ op ∈ ops, op.Valid) :
    ∃ s, run ops init = .ok s ∧
      (∀ subj, (factsFor s subj).Perm ((logOf ops).filter (fun a => decide (a.subject = subj)))) ∧
      (∀ f, (factsInFile s f).Perm ((logOf ops).filter (fun a => decide (a.file = f)))) ∧
      ((∀ a, Op.add a ∉ ops) → ∀ n, (factsFor s (.named n)).Pairwise before) := by
  obtain ⟨s, log, h1, h2, h3, h4⟩ := run_ok ops hv inv_init
  have h3 : log.map (·.2) = logOf ops := h3
  have hfile : ∀ f, (factsInFile s f).Perm ((logOf ops).filter (fun a => decide (a.file = f))) := by
    intro f
    have := h2.file.clone h2.arena f
    rw [h3] at this
    refine this.trans (List.Perm.of_eq ?_)
    apply List.filter_congr
    intro a _
    simp [hasKey, kFile]
  refine ⟨s, h1, ?_, hfile, ?_⟩
  · intro subj
    cases subj with
    | named n =>
      have := h2.named.clone h2.arena n
      rw [h3] at this
      refine this.trans (List.Perm.of_eq ?_)
      apply List.filter_congr
      intro a _
      simp [hasKey, kNamed_iff]
    | expr f i j =>
      rw [factsFor]
      refine ((hfile f).filter _).trans (List.Perm.of_eq ?_)
      rw [List.filter_filter]
      apply List.filter_congr
      intro a ha
      have hval : subjectOk a = true := by
        rw [← h3] at ha
        obtain ⟨x, hx, rfl⟩ := List.mem_map.mp ha
        exact h2.valid x hx
      rw [Bool.eq_iff_iff]
      simp only [Bool.and_eq_true, decide_eq_true_eq, subjectMatches_iff hval]
      constructor
      · exact fun h => h.1
      · intro h; exact ⟨h, ((subjectOk_iff.mp hval) f i j h).1.symm⟩
  · intro hn n
    have := h2.exact (by rw [h4 hn]; rfl) n
    rw [factsFor, this, h2.arena.clone_sortedIds]
    refine (stableSort_sorted oNamed _).imp ?_
    intro a b hab
    simp only [leBy, namedKey, lexLe, Bool.if_true_left, Bool.if_false_right, Bool.or_eq_true, Bool.and_eq_true, decide_eq_true_eq] at hab
    unfold before
    omega

/-! ### the latest named type -/

/-- Facts the loop looks at. -/
def Good (p : Nat → Nat → Nat → Bool) (off : Nat) (a : Fact) : Prop :=
  a.start ≤ off ∧ ∃ n, a.subject = .named n ∧ p n a.start a.stop = true

/-- What the loop has computed after the facts `l`. -/
def NamedInv (p : Nat → Nat → Nat → Bool) (off : Nat) (l : List Fact) (acc : Option (Nat × Nat) × Bool) : Prop :=
  match acc.1 with
  | none => (∀ a ∈ l, ¬ Good p off a) ∧ acc.2 = false
  | some (start, ty) =>
    (∃ a ∈ l, Good p off a ∧ a.start = start ∧ a.ty = ty) ∧ (∀ a ∈ l, Good p off a → a.start ≤ start) ∧
    (acc.2 = true ↔ ∃ a ∈ l, Good p off a ∧ a.start = start ∧ a.ty ≠ ty)

theorem namedStep_skip {p : Nat → Nat → Nat → Bool} {off : Nat} {a : Fact} (h : ¬ Good p off a) (acc : Option (Nat × Nat) × Bool) :
    namedStep p off acc a = acc := by
  rw [namedStep]
  split
  · rfl
  · rename_i hle
    cases hk : kNamed a with
    | none => rfl
    | some n =>
      dsimp only
      rw [if_pos]
      cases hp : p n a.start a.stop with
      | false => rfl
      | true => exact absurd ⟨by omega, n, kNamed_iff.mp hk, hp⟩ h

theorem namedStep_good {p : Nat → Nat → Nat → Bool} {off : Nat} {a : Fact} (h : Good p off a) (acc : Option (Nat × Nat) × Bool) :
    namedStep p off acc a = match acc.1 with
        | none => (some (a.start, a.ty), acc.2)
        | some (start, ty) =>
          if a.start > start then (some (a.start, a.ty), false)
          else if a.start = start then (acc.1, if ty ≠ a.ty then true else acc.2)
          else acc := by
  obtain ⟨h1, n, h2, h3⟩ := h
  rw [namedStep, if_neg (by omega), kNamed_iff.mpr h2]
  dsimp only
  rw [if_neg (by simp [h3])]
  rfl

theorem namedInv_step {p : Nat → Nat → Nat → Bool} {off : Nat} {l : List Fact} {acc : Option (Nat × Nat) × Bool}
    (h : NamedInv p off l acc) (a : Fact) : NamedInv p off (l ++ [a]) (namedStep p off acc a) := by
  obtain ⟨o, amb⟩ := acc
  by_cases hg : Good p off a
  · rw [namedStep_good hg]
    cases o with
    | none =>
      obtain ⟨h1, h2⟩ := h
      simp only at h2
      subst h2
      refine ⟨⟨a, by simp, hg, rfl, rfl⟩, ?_, ?_⟩
      · intro b hb hgb
        rcases List.mem_append.mp hb with hb | hb
        · exact absurd hgb (h1 b hb)
        · simp only [List.mem_singleton] at hb; subst hb; exact Nat.le_refl _
      · simp only [Bool.false_eq_true, false_iff]
        rintro ⟨b, hb, hgb, _, hne⟩
        rcases List.mem_append.mp hb with hb | hb
        · exact absurd hgb (h1 b hb)
        · simp only [List.mem_singleton] at hb; subst hb; exact hne rfl
    | some q =>
      obtain ⟨start, ty⟩ := q
      obtain ⟨⟨c, hc, hgc, hcs, hct⟩, h2, h3⟩ := h
      simp only at h3
      dsimp only
      by_cases hgt : a.start > start
      · rw [if_pos hgt]
        refine ⟨⟨a, by simp, hg, rfl, rfl⟩, ?_, ?_⟩
        · intro b hb hgb
          rcases List.mem_append.mp hb with hb | hb
          · have := h2 b hb hgb; omega
          · simp only [List.mem_singleton] at hb; subst hb; exact Nat.le_refl _
        · simp only [Bool.false_eq_true, false_iff]
          rintro ⟨b, hb, hgb, hbs, hne⟩
          rcases List.mem_append.mp hb with hb | hb
          · have := h2 b hb hgb; omega
          · simp only [List.mem_singleton] at hb; subst hb; exact hne rfl
      · rw [if_neg hgt]
        by_cases heq : a.start = start
        · rw [if_pos heq]
          refine ⟨⟨c, by simp [hc], hgc, hcs, hct⟩, ?_, ?_⟩
          · intro b hb hgb
            rcases List.mem_append.mp hb with hb | hb
            · exact h2 b hb hgb
            · simp only [List.mem_singleton] at hb; subst hb; omega
          · by_cases hty : ty = a.ty
            · simp only [hty, ne_eq, not_true_eq_false, if_false]
              rw [h3]
              constructor
              · rintro ⟨b, hb, r⟩; exact ⟨b, by simp [hb], by rw [← hty]; exact r⟩
              · rintro ⟨b, hb, hgb, hbs, hne⟩
                rcases List.mem_append.mp hb with hb | hb
                · exact ⟨b, hb, hgb, hbs, by rw [hty]; exact hne⟩
                · simp only [List.mem_singleton] at hb; subst hb; exact absurd rfl hne
            · simp only [ne_eq, hty, not_false_eq_true, if_true, true_iff]
              exact ⟨a, by simp, hg, heq, fun e => hty e.symm⟩
        · rw [if_neg heq]
          refine ⟨⟨c, by simp [hc], hgc, hcs, hct⟩, ?_, ?_⟩
          · intro b hb hgb
            rcases List.mem_append.mp hb with hb | hb
            · exact h2 b hb hgb
            · simp only [List.mem_singleton] at hb; subst hb; omega
          · simp only
            rw [h3]
            constructor
            · rintro ⟨b, hb, r⟩; exact ⟨b, by simp [hb], r⟩
            · rintro ⟨b, hb, hgb, hbs, hne⟩
              rcases List.mem_append.mp hb with hb | hb
              · exact ⟨b, hb, hgb, hbs, hne⟩
              · simp only [List.mem_singleton] at hb; subst hb; exact absurd hbs heq
  · rw [namedStep_skip hg]
    have hmem : ∀ (P : Fact → Prop), (∃ b ∈ l ++ [a], Good p off b ∧ P b) ↔ ∃ b ∈ l, Good p off b ∧ P b := by
      intro P
      constructor
      · rintro ⟨b, hb, hgb, r⟩
        rcases List.mem_append.mp hb with hb | hb
        · exact ⟨b, hb, hgb, r⟩
        · simp only [List.mem_singleton] at hb; subst hb; exact absurd hgb hg
      · rintro ⟨b, hb, r⟩; exact ⟨b, by simp [hb], r⟩
    cases o with
    | none =>
      refine ⟨?_, h.2⟩
      intro b hb
      rcases List.mem_append.mp hb with hb | hb
      · exact h.1 b hb
      · simp only [List.mem_singleton] at hb; subst hb; exact hg
    | some q =>
      obtain ⟨start, ty⟩ := q
      obtain ⟨h1, h2, h3⟩ := h
      refine ⟨(hmem _).mpr h1, ?_, h3.trans (hmem _).symm⟩
      intro b hb hgb
      rcases List.mem_append.mp hb with hb | hb
      · exact h2 b hb hgb
      · simp only [List.mem_singleton] at hb; subst hb; exact absurd hgb hg

theorem namedInv_foldl {p : Nat → Nat → Nat → Bool} {off : Nat} (l : List Fact) {l0 : List Fact} {acc : Option (Nat × Nat) × Bool}
    (h : NamedInv p off l0 acc) : NamedInv p off (l0 ++ l) (l.foldl (namedStep p off) acc) := by
  induction l generalizing l0 acc with
  | nil => simpa using h
  | cons a l ih =>
    have := ih (namedInv_step h a)
    rw [List.append_assoc] at this
    exact this

/-- **C20**: the latest type of the named subjects a caller selects is what the facts present for the file prescribe:
none without a fact, the common type of the facts at the latest starting position, ambiguous when they disagree. -/
theorem c20_named_type_before_spec (ops : List Op) (hv : ∀ op ∈ ops, op.Valid) :
    ∃ s, run ops init = .ok s ∧ ∀ f off p, SpecNamed (logOf ops) p f off (namedTypeBefore s f off p) := by
  obtain ⟨s, log, h1, h2, h3, _⟩ := run_ok ops hv inv_init
  have h3 : log.map (·.2) = logOf ops := h3
  refine ⟨s, h1, ?_⟩
  intro f off p
  have hmem : ∀ a, a ∈ s.arena.clone (s.byFile f) ↔ a ∈ logOf ops ∧ a.file = f := by
    intro a
    rw [(h2.file.clone h2.arena f).mem_iff, h3, List.mem_filter]
    simp [hasKey, kFile]
  have hinv := namedInv_foldl (p := p) (off := off) (s.arena.clone (s.byFile f)) (l0 := []) (acc := (none, false))
    ⟨by simp, rfl⟩
  rw [List.nil_append] at hinv
  rw [namedTypeBefore]
  generalize s.arena.clone (s.byFile f) = l at hmem hinv
  have hB : ∀ a, NamedBefore (logOf ops) p f off a ↔ a ∈ l ∧ Good p off a := by
    intro a; rw [hmem]; unfold NamedBefore Good
    exact ⟨fun ⟨a, b, c⟩ => ⟨⟨a, b⟩, c⟩, fun ⟨⟨a, b⟩, c⟩ => ⟨a, b, c⟩⟩
  generalize l.foldl (namedStep p off) (none, false) = acc at hinv
  obtain ⟨o, amb⟩ := acc
  cases o with
  | none =>
    intro a ha
    rw [hB] at ha
    exact hinv.1 a ha.1 ha.2
  | some q =>
    obtain ⟨start, ty⟩ := q
    obtain ⟨⟨c, hc, hgc, hcs, hct⟩, i2, i3⟩ := hinv
    have hL : ∀ a, NamedLatest (logOf ops) p f off a ↔ a ∈ l ∧ Good p off a ∧ a.start = start := by
      intro a
      constructor
      · rintro ⟨hb, hall⟩
        have := hall c ((hB c).mpr ⟨hc, hgc⟩)
        rw [hB] at hb
        have h5 := i2 a hb.1 hb.2
        exact ⟨hb.1, hb.2, by omega⟩
      · rintro ⟨h4, h5, h6⟩
        refine ⟨(hB a).mpr ⟨h4, h5⟩, ?_⟩
        intro b hb
        rw [hB] at hb
        rw [h6]; exact i2 b hb.1 hb.2
    simp only at i3
    cases amb with
    | true =>
      obtain ⟨b, hb, hgb, hbs, hne⟩ := i3.mp rfl
      exact ⟨b, c, (hL b).mpr ⟨hb, hgb, hbs⟩, (hL c).mpr ⟨hc, hgc, hcs⟩, by rw [hct]; exact hne⟩
    | false =>
      refine ⟨⟨c, (hL c).mpr ⟨hc, hgc, hcs⟩⟩, ?_⟩
      intro a ha
      obtain ⟨h4, h5, h6⟩ := (hL a).mp ha
      apply Classical.byContradiction
      intro hne
      have := i3.mpr ⟨a, h4, h5, h6, hne⟩
      simp at this

/-- The specification determines the answer up to agreement. -/
theorem spec_agree {log log' : List Fact} {subj : Subject} {f off : Nat}
    (hB : ∀ a, Before log subj f off a ↔ Before log' subj f off a) {x y : Resolution} (r1 : SpecTypeAt log subj f off x)
    (r2 : SpecTypeAt log' subj f off y) :
    (x = .unresolved ↔ y = .unresolved) ∧ ((∃ l, x = .ambiguous l) ↔ ∃ l, y = .ambiguous l) ∧
    (∀ a a', x = .resolved a → y = .resolved a' → Agree a a' ∧ a.start = a'.start) := by
  have hL : ∀ a, Latest log subj f off a ↔ Latest log' subj f off a := by
    intro a; unfold Latest; simp only [hB]
  cases x with
  | unresolved =>
    cases y with
    | unresolved => simp
    | resolved a => exact absurd ((hB a).mpr r2.1.1) (r1 a)
    | ambiguous l => obtain ⟨⟨b, c, hb, _, _⟩, _⟩ := r2; exact absurd ((hB b).mpr hb.1) (r1 b)
  | resolved a =>
    cases y with
    | unresolved => exact absurd ((hB a).mp r1.1.1) (r2 a)
    | resolved a' =>
      simp only [Resolution.resolved.injEq, reduceCtorEq, exists_false, true_and]
      rintro _ _ rfl rfl
      refine ⟨r2.2 a ((hL a).mp r1.1), ?_⟩
      have h1 := r1.1.2 a' ((hB a').mpr r2.1.1)
      have h2 := r2.1.2 a ((hB a).mp r1.1.1)
      omega
    | ambiguous l =>
      obtain ⟨⟨b, c, hb, hc, hne⟩, _⟩ := r2
      have e1 := r1.2 b ((hL b).mpr hb)
      have e2 := r1.2 c ((hL c).mpr hc)
      exact absurd ⟨e1.1.trans e2.1.symm, e1.2.trans e2.2.symm⟩ hne
  | ambiguous l =>
    obtain ⟨⟨b, c, hb, hc, hne⟩, _⟩ := r1
    cases y with
    | unresolved => exact absurd ((hB b).mp hb.1) (r2 b)
    | resolved a =>
      have e1 := r2.2 b ((hL b).mp hb)
      have e2 := r2.2 c ((hL c).mp hc)
      exact absurd ⟨e1.1.trans e2.1.symm, e1.2.trans e2.2.symm⟩ hne
    | ambiguous l' => simp

/-- **C20**: the answers cannot depend on facts of other files or on how the store got to its facts. -/
theorem c20_independent_of_history (str : Nat → List Nat) (ops ops' : List Op) (hv : ∀ o ∈ ops, o.Valid)
    (hv' : ∀ o ∈ ops', o.Valid) {s s' : State} (h : run ops init = .ok s) (h' : run ops' init = .ok s') (subj : Subject) (f off : Nat)
    (hsame : ∀ a, a.subject = subj → a.file = f → (a ∈ logOf ops ↔ a ∈ logOf ops')) :
    (typeAt str s subj f off = .unresolved ↔ typeAt str s' subj f off = .unresolved) ∧
    ((∃ l, typeAt str s subj f off = .ambiguous l) ↔ ∃ l, typeAt str s' subj f off = .ambiguous l) ∧
    (∀ a a', typeAt str s subj f off = .resolved a → typeAt str s' subj f off = .resolved a' → Agree a a' ∧ a.start = a'.start) := by
  obtain ⟨s1, e1, r1⟩ := c20_type_at_spec str ops hv
  rw [h] at e1; cases e1
  obtain ⟨s2, e2, r2⟩ := c20_type_at_spec str ops' hv'
  rw [h'] at e2; cases e2
  refine spec_agree ?_ (r1 subj f off) (r2 subj f off)
  intro a
  unfold Before
  constructor
  · rintro ⟨a1, a2, a3, a4⟩; exact ⟨(hsame a a2 a3).mp a1, a2, a3, a4⟩
  · rintro ⟨a1, a2, a3, a4⟩; exact ⟨(hsame a a2 a3).mpr a1, a2, a3, a4⟩

/-- An expression fact about another range is refused by a panic. -/
theorem c20_foreign_expression_panics (s : State) (a : Fact) (h : ¬ a.Valid) : add s a = .panic := by
  rw [add, if_neg]
  rw [subjectOk_iff]; exact h

/-- Example: a later write shadows an earlier one, two different types at one place are ambiguous (as are two provenances of
one type), replacing the file withdraws its facts. -/
theorem c20_example :
    let a (ty start prov : Nat) : Fact := { subject := .named 1, ty, file := 3, start, stop := start + 2, prov }
    let res (ops : List Op) (off : Nat) := ((run ops init).state?.map fun s => typeAt (fun t => [t]) s (.named 1) 3 off)
    res [.replace 3 [a 5 0 0, a 6 10 1]] 9 = some (.resolved (a 5 0 0)) ∧
    res [.replace 3 [a 5 0 0, a 6 10 1]] 10 = some (.resolved (a 6 10 1)) ∧
    res [.replace 3 [a 6 10 1, a 5 10 0, a 6 10 1]] 12 = some (.ambiguous [a 5 10 0, a 6 10 1]) ∧
    res [.replace 3 [a 6 10 1, a 6 10 7], .updateInferred 3 1 8] 12 = some (.ambiguous [a 6 10 1, a 8 10 7]) ∧
    res [.replace 3 [a 6 10 1], .add (a 7 12 1), .replace 3 [a 6 10 1]] 20 = some (.resolved (a 6 10 1)) ∧
    res [.replace 3 [a 6 10 1], .remove 3] 20 = some .unresolved := by
  decide

/-- The hypothesis of `c20_ambiguous_distinct` is needed: with two types of the same text one candidate can be listed twice. -/
theorem c20_same_text_repeats :
    ∃ s l, run [.replace 3 [⟨.named 1, 5, 3, 0, 1, 0⟩, ⟨.named 1, 6, 3, 0, 1, 0⟩, ⟨.named 1, 5, 3, 0, 1, 0⟩]] init = .ok s ∧
      typeAt (fun _ => []) s (.named 1) 3 0 = .ambiguous l ∧ ¬ l.Pairwise (fun a b => ¬ Agree a b) := by
  refine ⟨_, [⟨.named 1, 5, 3, 0, 1, 0⟩, ⟨.named 1, 6, 3, 0, 1, 0⟩, ⟨.named 1, 5, 3, 0, 1, 0⟩], rfl, by decide, ?_⟩
  simp [Agree]

end Verif.TypeStore
