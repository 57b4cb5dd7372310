import Verif.Lemmas.ClassFileAttrs

/-! Code, members, components, modules and classes: what the parsers decide. -/
namespace Verif.ClassFile

open Jvm

theorem raw2_iff (w : Bytes) : Raw 2 w ↔ ∃ n, Num n w := by
  constructor
  · intro h
    match w, h with
    | [x, y], _ =>
      obtain ⟨n, hn⟩ : ∃ n, u2 [x, y] = some (n, []) := ⟨_, rfl⟩
      obtain ⟨w', h1, h2⟩ := (Parses.u2 [x, y] n []).1 hn
      rw [List.append_nil] at h1
      exact ⟨n, h1 ▸ h2⟩
  · rintro ⟨n, _, rfl⟩
    rfl

theorem Parses.u2Skip {α : Type} {p : P α} {G : α → Bytes → Prop} (h : Parses p G) :
    Parses (ClassFile.u2 >>= fun _ => p) (fun a w => ∃ w1 w2, w = w1 ++ w2 ∧ Raw 2 w1 ∧ G a w2) := by
  refine (Parses.u2.bind fun _ => h).congr ?_
  intro a w
  constructor
  · rintro ⟨n, w1, w2, rfl, h1, h2⟩
    exact ⟨w1, w2, rfl, (raw2_iff w1).2 ⟨n, h1⟩, h2⟩
  · rintro ⟨w1, w2, rfl, h1, h2⟩
    obtain ⟨n, hn⟩ := (raw2_iff w1).1 h1
    exact ⟨n, w1, w2, rfl, hn, h2⟩

theorem Parses.u2Raw : Parses (ClassFile.u2 >>= fun _ => Pure.pure ()) (fun _ w => Raw 2 w) := by
  refine (Parses.u2Skip (Parses.pure ())).congr ?_
  intro a w
  constructor
  · rintro ⟨w1, w2, rfl, h, _, rfl⟩
    rwa [List.append_nil]
  · intro h
    exact ⟨w, [], by simp, h, rfl, rfl⟩

theorem Parses.u2Skip2 {α : Type} {p : P α} {G : α → Bytes → Prop} (h : Parses p G) :
    Parses (ClassFile.u2 >>= fun _ => ClassFile.u2 >>= fun _ => p) (fun a w => ∃ w1 w2, w = w1 ++ w2 ∧ Raw 4 w1 ∧ G a w2) := by
  refine (Parses.u2Skip (Parses.u2Skip h)).congr ?_
  intro a w
  constructor
  · rintro ⟨w1, _, rfl, h1, w2, w3, rfl, h2, h3⟩
    exact ⟨w1 ++ w2, w3, by simp, by unfold Raw at *; rw [List.length_append]; omega, h3⟩
  · rintro ⟨w1, w2, rfl, h1, h2⟩
    match w1, h1 with
    | [x, y, z, u], _ => exact ⟨[x, y], [z, u] ++ w2, rfl, rfl, [z, u], w2, rfl, rfl, h2⟩

/-! ### Code -/

theorem least_some (lines : List Nat) : ∀ (y m : Nat), lines.foldl (fun m x => some (match m with | none => x | some y => min y x)) (some y) = some m ↔
    m ∈ y :: lines ∧ ∀ x ∈ y :: lines, m ≤ x := by
  induction lines with
  | nil =>
    intro y m
    simp only [List.foldl, Option.some.injEq, List.mem_cons, List.not_mem_nil, or_false]
    constructor
    · rintro rfl
      exact ⟨rfl, fun x hx => by omega⟩
    · rintro ⟨rfl, _⟩
      rfl
  | cons z l ih =>
    intro y m
    rw [List.foldl_cons, ih]
    simp only [List.mem_cons, forall_eq_or_imp]
    constructor
    · rintro ⟨h1 | h1, h2, h3⟩
      · rcases Nat.le_total y z with h | h
        · rw [Nat.min_eq_left h] at h1; exact ⟨.inl h1, by omega, by omega, h3⟩
        · rw [Nat.min_eq_right h] at h1; exact ⟨.inr (.inl h1), by omega, by omega, h3⟩
      · exact ⟨.inr (.inr h1), by omega, by omega, h3⟩
    · rintro ⟨h1 | h1 | h1, h2, h3, h4⟩
      · exact ⟨.inl (by omega), by omega, h4⟩
      · exact ⟨.inl (by omega), by omega, h4⟩
      · exact ⟨.inr h1, by omega, h4⟩

theorem least_iff (lines : List Nat) (m : Nat) : lines.foldl (fun m x => some (match m with | none => x | some y => min y x)) none = some m ↔
    m ∈ lines ∧ ∀ x ∈ lines, m ≤ x := by
  cases lines with
  | nil => simp
  | cons y l =>
    rw [List.foldl_cons]
    exact least_some l y m

theorem firstLine_iff (L : Limits) (b : Bytes) (o : Option Nat) : firstLine L b = some o ↔ IsLines L o b := by
  refine (whole_iff (Parses.tableThen L.members (Parses.u2Skip Parses.u2) fun lines => Parses.pure
    (lines.foldl (fun m x => some (match m with | none => x | some y => min y x)) none)) b o).trans ?_
  constructor
  · rintro ⟨lines, w1, w2, rfl, h1, rfl, rfl⟩
    rw [List.append_nil]
    exact ⟨lines, h1, least_iff lines⟩
  · rintro ⟨lines, h1, h2⟩
    refine ⟨lines, b, [], by simp, h1, ?_, rfl⟩
    apply Option.ext
    intro m
    rw [h2 m, ← least_iff lines m]

theorem localVariables_iff (L : Limits) (cp : Pool) (b : Bytes) (l : List Local) : localVariables L cp b = some l ↔ Table L.members (IsLocal cp) l b := by
  refine whole_iff ((Parses.congr (Parses.u2.bind fun start => Parses.u2Skip ((Parses.utf8Ref cp).bind fun name => (Parses.utf8Ref cp).bind fun d =>
    (Parses.must (isField d = true)).bind fun _ => Parses.u2.bind fun slot => Parses.pure { start := start, slot := slot, name := name })) ?_).table L.members) b l
  intro x w
  constructor
  · rintro ⟨start, w1, _, rfl, h1, w2, _, rfl, h2, name, w3, _, rfl, h3, d, w4, _, rfl, h4, _, w, _, rfl, ⟨h5, rfl⟩, slot, w5, w6, rfl, h6, rfl, rfl⟩
    exact ⟨w1, w2, w3, w4, w5, d, by simp, h1, h2, h3, h4, (isField_iff d).1 h5, h6⟩
  · rintro ⟨w1, w2, w3, w4, w5, d, rfl, h1, h2, h3, h4, h5, h6⟩
    exact ⟨x.start, w1, w2 ++ (w3 ++ (w4 ++ w5)), by simp, h1, w2, w3 ++ (w4 ++ w5), rfl, h2, x.name, w3, w4 ++ w5, rfl, h3, d, w4, w5, rfl, h4, (), [], w5, rfl,
      ⟨(isField_iff d).2 h5, rfl⟩, x.slot, w5, [], by simp, h6, rfl, rfl⟩

theorem Parses.attributeCount (L : Limits) (seen : Nat) :
    Parses (attributeCount L seen) (fun x w => Num x.1 w ∧ x.2 = seen + x.1 ∧ x.2 ≤ L.attributes) := by
  refine (Parses.u2.bind fun n => (Parses.must (seen + n ≤ L.attributes)).bind fun _ => Parses.pure (n, seen + n)).congr ?_
  rintro ⟨n, k⟩ w
  constructor
  · rintro ⟨n, w1, w2, rfl, h1, _, w3, w4, rfl, ⟨h2, rfl⟩, e, rfl⟩
    cases e
    exact ⟨by simpa using h1, rfl, h2⟩
  · rintro ⟨h1, e, h2⟩
    simp only at e
    subst e
    exact ⟨n, w, [], by simp, h1, (), [], [], rfl, ⟨h2, rfl⟩, rfl, rfl⟩

theorem Parses.attrTable {σ β : Type} (L : Limits) (cp : Pool) (seen : Nat) (step : σ → Str × Bytes → Option σ) (init : Nat → σ) {q : Nat → σ → P β}
    {H : Nat → σ → β → Bytes → Prop} (hq : ∀ k s, Parses (q k s) (H k s)) :
    Parses (ClassFile.attributeCount L seen >>= fun k => ClassFile.attributes L cp step k.1 (init k.2) >>= fun s => q k.2 s)
      (fun c w => ∃ as s w1 w2, w = w1 ++ w2 ∧ Attrs L cp as w1 ∧ seen + as.length ≤ L.attributes ∧ run step (init (seen + as.length)) as = some s ∧
        H (seen + as.length) s c w2) := by
  refine ((Parses.attributeCount L seen).bind fun k => (Parses.attributes L cp step k.1 (init k.2)).bind fun s => hq k.2 s).congr ?_
  intro c w
  constructor
  · rintro ⟨⟨n, k⟩, w1, _, rfl, ⟨⟨h1, rfl⟩, e, h2⟩, s, w2, w3, rfl, ⟨as, e', h3, h4⟩, h5⟩
    simp only at e e'
    subst e'
    subst e
    exact ⟨as, s, be2 as.length ++ w2, w3, by simp, ⟨h1, w2, rfl, h3⟩, h2, h4, h5⟩
  · rintro ⟨as, s, _, w2, rfl, ⟨h1, w', rfl, h2⟩, h3, h4, h5⟩
    exact ⟨(as.length, seen + as.length), _, w' ++ w2, by simp only [List.append_assoc], ⟨⟨h1, rfl⟩, rfl, h3⟩, s, w', w2, rfl, ⟨as, rfl, h2, h4⟩, h5⟩

/-- What was read of the attributes of code so far. -/
def CodeSays (L : Limits) (cp : Pool) (as : List (Str × Bytes)) (s : CodeState) : Prop :=
  One "LineNumberTable" (IsLines L) as s.lines ∧ One "LocalVariableTable" (Table L.members (IsLocal cp)) as s.locals

theorem code_says (L : Limits) (cp : Pool) (as : List (Str × Bytes)) (s : CodeState) :
    run (codeStep L cp) { lines := none, locals := none } as = some s ↔ CodeSays L cp as s := by
  refine run_iff (S := CodeSays L cp) ?_ ?_ as s
  · rintro ⟨a, b⟩
    simp [CodeSays, one_nil]
  · rintro as a ⟨x, y⟩
    unfold CodeSays codeStep
    by_cases h1 : a.1 = "LineNumberTable".toList
    · rw [one_same h1, one_other (by rw [h1]; decide)]
      constructor
      · rintro ⟨⟨h2, v, hv, h3⟩, h4⟩
        refine ⟨⟨none, y⟩, ⟨h2, h4⟩, ?_⟩
        simp only at hv
        subst hv
        rw [if_pos h1]
        simp [(firstLine_iff L a.2 v).2 h3]
      · rintro ⟨⟨x', y'⟩, ⟨h2, h3⟩, h4⟩
        rw [if_pos h1] at h4
        cases x' with
        | some _ => simp at h4
        | none =>
          simp only [Option.isSome_none, Bool.false_eq_true, if_false, Option.map_eq_some_iff] at h4
          obtain ⟨v, hv, e⟩ := h4
          cases e
          exact ⟨⟨h2, v, rfl, (firstLine_iff L a.2 v).1 hv⟩, h3⟩
    · by_cases h2 : a.1 = "LocalVariableTable".toList
      · rw [one_other h1, one_same h2]
        constructor
        · rintro ⟨h4, h3, v, hv, h5⟩
          refine ⟨⟨x, none⟩, ⟨h4, h3⟩, ?_⟩
          simp only at hv
          subst hv
          rw [if_neg h1, if_pos h2]
          simp [(localVariables_iff L cp a.2 v).2 h5]
        · rintro ⟨⟨x', y'⟩, ⟨h3, h5⟩, h4⟩
          rw [if_neg h1, if_pos h2] at h4
          cases y' with
          | some _ => simp at h4
          | none =>
            simp only [Option.isSome_none, Bool.false_eq_true, if_false, Option.map_eq_some_iff] at h4
            obtain ⟨v, hv, e⟩ := h4
            cases e
            exact ⟨h3, h5, v, rfl, (localVariables_iff L cp a.2 v).1 hv⟩
      · rw [one_other h1, one_other h2]
        simp only [if_neg h1, if_neg h2, Option.some.injEq]
        constructor
        · intro h
          exact ⟨_, h, rfl⟩
        · rintro ⟨s, h, rfl⟩
          exact h

theorem code_iff (L : Limits) (cp : Pool) (seen : Nat) (b : Bytes) (s : CodeState) (k : Nat) :
    code L cp seen b = some (s, k) ↔ ∃ n, IsCode L cp s n b ∧ k = seen + n ∧ k ≤ L.attributes := by
  refine (whole_iff (Parses.u2Skip2 (Parses.u4.bind fun n => (Parses.must (n ≤ L.attributeBytes)).bind fun _ => (Parses.take n).bind fun _ =>
    (Parses.count L.members).bind fun e => (Parses.take (e * 8)).bind fun _ =>
    Parses.attrTable L cp seen (codeStep L cp) (fun _ => { lines := none, locals := none }) fun k s => Parses.pure (s, k))) b (s, k)).trans ?_
  constructor
  · rintro ⟨head, _, rfl, h1, n, _, _, rfl, ⟨h2, rfl⟩, _, _, _, rfl, ⟨h3, rfl⟩, body, _, _, rfl, ⟨rfl, rfl⟩, e, _, _, rfl, ⟨h4, h5, rfl⟩, hs, _, _, rfl, ⟨rfl, h6⟩,
      as, s, wa, _, rfl, h7, h8, h9, e, rfl⟩
    cases e
    obtain ⟨h10, h11⟩ := (code_says L cp as s).1 h9
    exact ⟨as.length, ⟨head, body, hs, wa, _, as, by simp, h1, h2, h3, h5, h4, by rw [Nat.mul_comm]; exact h6, h7, rfl, h10, h11⟩, rfl, h8⟩
  · rintro ⟨n, ⟨head, body, hs, wa, e, as, rfl, h1, h2, h3, h4, h5, h6, h7, rfl, h8, h9⟩, rfl, h10⟩
    refine ⟨head, be4 body.length ++ (body ++ (be2 e ++ (hs ++ wa))), by simp only [List.append_assoc], h1, body.length, _, _, rfl, ⟨h2, rfl⟩, (), [], _, rfl, ⟨h3, rfl⟩,
      body, body, _, rfl, ⟨rfl, rfl⟩, e, _, _, rfl, ⟨h5, h4, rfl⟩, hs, hs, wa, rfl, ⟨rfl, by rw [Nat.mul_comm]; exact h6⟩, as, s, wa, [], by simp, h7, h10,
      (code_says L cp as s).2 ⟨h8, h9⟩, rfl, rfl⟩

/-! ### Members -/

/-- What was read of the attributes of a member so far. -/
def MemberSays (L : Limits) (cp : Pool) (k : Nat) (as : List (Str × Bytes)) (s : MemberState) : Prop :=
  One "Signature" (Ref (TextAt cp)) as s.signature ∧ One "Exceptions" (Table L.members (Ref (ClassAt cp))) as s.exceptions ∧
  One "MethodParameters" (IsMethodParameters L cp) as s.parameters ∧ AllAnnotations L cp as s.annotations ∧
  ∃ c : Option (CodeState × Nat), One "Code" (fun x v => IsCode L cp x.1 x.2 v) as c ∧ s.code = c.map (·.1) ∧ s.seen = k + (c.map (·.2)).getD 0 ∧
    s.seen ≤ L.attributes

theorem not_annotations {name : String} (h : isAnnotations name.toList = false) {a : Str × Bytes} (e : a.1 = name.toList) : isAnnotations a.1 = false := by
  rw [e, h]

theorem other_of_annotations {a : Str × Bytes} (h : isAnnotations a.1 = true) {name : String} (hn : isAnnotations name.toList = false) : a.1 ≠ name.toList := by
  intro e
  rw [e, hn] at h
  cases h

theorem member_says (L : Limits) (cp : Pool) (k : Nat) (hk : k ≤ L.attributes) (as : List (Str × Bytes)) (s : MemberState) :
    run (memberStep L cp) { signature := none, exceptions := none, parameters := none, annotations := [], code := none, seen := k } as = some s ↔
      MemberSays L cp k as s := by
  refine run_iff (S := MemberSays L cp k) ?_ ?_ as s
  · rintro ⟨a, b, c, d, e, f⟩
    simp only [MemberSays, one_nil, annotations_nil, MemberState.mk.injEq]
    constructor
    · rintro ⟨rfl, rfl, rfl, rfl, c, rfl, rfl, rfl, _⟩
      simp
    · rintro ⟨rfl, rfl, rfl, rfl, rfl, rfl⟩
      exact ⟨rfl, rfl, rfl, rfl, none, rfl, rfl, rfl, hk⟩
  · rintro as a ⟨sg, ex, ps, an, co, seen⟩
    unfold MemberSays memberStep
    by_cases h1 : a.1 = "Signature".toList
    · rw [one_same h1, one_other (by rw [h1]; decide), one_other (by rw [h1]; decide), annotations_other (not_annotations (by decide) h1)]
      simp only [one_other (name := "Code") (a := a) (show a.1 ≠ "Code".toList by rw [h1]; decide), if_pos h1]
      constructor
      · rintro ⟨⟨h2, v, hv, h3⟩, h4⟩
        refine ⟨⟨none, ex, ps, an, co, seen⟩, ⟨h2, h4⟩, ?_⟩
        subst hv
        simp [(signature_iff cp a.2 v).2 h3]
      · rintro ⟨⟨x, _, _, _, _, _⟩, ⟨h2, h3⟩, h4⟩
        cases x with
        | some _ => simp at h4
        | none =>
          simp only [Option.isSome_none, Bool.false_eq_true, if_false, Option.map_eq_some_iff] at h4
          obtain ⟨v, hv, e⟩ := h4
          cases e
          exact ⟨⟨h2, v, rfl, (signature_iff cp a.2 v).1 hv⟩, h3⟩
    rw [one_other h1]
    simp only [if_neg h1]
    by_cases h2 : a.1 = "Exceptions".toList
    · rw [one_same h2, one_other (by rw [h2]; decide), annotations_other (not_annotations (by decide) h2)]
      simp only [one_other (name := "Code") (a := a) (show a.1 ≠ "Code".toList by rw [h2]; decide), if_pos h2]
      constructor
      · rintro ⟨h4, ⟨h3, v, hv, h5⟩, h6⟩
        refine ⟨⟨sg, none, ps, an, co, seen⟩, ⟨h4, h3, h6⟩, ?_⟩
        subst hv
        simp [(exceptions_iff L cp a.2 v).2 h5]
      · rintro ⟨⟨_, x, _, _, _, _⟩, ⟨h3, h5, h6⟩, h4⟩
        cases x with
        | some _ => simp at h4
        | none =>
          simp only [Option.isSome_none, Bool.false_eq_true, if_false, Option.map_eq_some_iff] at h4
          obtain ⟨v, hv, e⟩ := h4
          cases e
          exact ⟨h3, ⟨h5, v, rfl, (exceptions_iff L cp a.2 v).1 hv⟩, h6⟩
    rw [one_other h2]
    simp only [if_neg h2]
    by_cases h3 : a.1 = "MethodParameters".toList
    · rw [one_same h3, annotations_other (not_annotations (by decide) h3)]
      simp only [one_other (name := "Code") (a := a) (show a.1 ≠ "Code".toList by rw [h3]; decide), if_pos h3]
      constructor
      · rintro ⟨h4, h5, ⟨h6, v, hv, h7⟩, h8⟩
        refine ⟨⟨sg, ex, none, an, co, seen⟩, ⟨h4, h5, h6, h8⟩, ?_⟩
        subst hv
        simp [(methodParameters_iff L cp a.2 v).2 h7]
      · rintro ⟨⟨_, _, x, _, _, _⟩, ⟨h4, h5, h6, h7⟩, h8⟩
        cases x with
        | some _ => simp at h8
        | none =>
          simp only [Option.isSome_none, Bool.false_eq_true, if_false, Option.map_eq_some_iff] at h8
          obtain ⟨v, hv, e⟩ := h8
          cases e
          exact ⟨h4, h5, ⟨h6, v, rfl, (methodParameters_iff L cp a.2 v).1 hv⟩, h7⟩
    rw [one_other h3]
    simp only [if_neg h3]
    by_cases h4 : isAnnotations a.1 = true
    · rw [annotations_same h4]
      simp only [one_other (name := "Code") (a := a) (other_of_annotations h4 (by decide)), if_pos h4, Option.map_eq_some_iff]
      constructor
      · rintro ⟨h5, h6, h7, ⟨d1, d2, e, h8, h9⟩, h10⟩
        subst e
        exact ⟨⟨sg, ex, ps, d1, co, seen⟩, ⟨h5, h6, h7, h8, h10⟩, d2, (annotations_iff L cp a.2 d2).2 h9, rfl⟩
      · rintro ⟨⟨_, _, _, _, _, _⟩, ⟨h5, h6, h7, h8, h10⟩, d2, h9, e⟩
        cases e
        exact ⟨h5, h6, h7, ⟨_, d2, rfl, h8, (annotations_iff L cp a.2 d2).1 h9⟩, h10⟩
    rw [annotations_other (by simpa using h4)]
    simp only [if_neg h4]
    by_cases h5 : a.1 = "Code".toList
    · simp only [one_same h5, if_pos h5]
      constructor
      · rintro ⟨h6, h7, h8, h9, c, ⟨h10, ⟨v, n⟩, rfl, h11⟩, h12, h13, h14⟩
        simp only [Option.map_some, Option.getD_some] at h12 h13
        subst h12 h13
        refine ⟨⟨sg, ex, ps, an, none, k⟩, ⟨h6, h7, h8, h9, none, h10, rfl, by simp, hk⟩, ?_⟩
        simp [(code_iff L cp k a.2 v (k + n)).2 ⟨n, h11, rfl, h14⟩]
      · rintro ⟨⟨_, _, _, _, x, y⟩, ⟨h6, h7, h8, h9, c, h10, h11, h12, h13⟩, h14⟩
        cases x with
        | some _ => simp at h14
        | none =>
          simp only [Option.isSome_none, Bool.false_eq_true, if_false, Option.map_eq_some_iff] at h14
          obtain ⟨⟨v, n'⟩, hv, e⟩ := h14
          cases e
          simp only at h11 h12 h13
          cases c with
          | some _ => simp at h11
          | none =>
            simp only [Option.map_none, Option.getD_none, Nat.add_zero] at h12
            subst h12
            obtain ⟨n, h15, rfl, h16⟩ := (code_iff L cp y a.2 v n').1 hv
            exact ⟨h6, h7, h8, h9, some (v, n), ⟨h10, (v, n), rfl, h15⟩, rfl, rfl, h16⟩
    simp only [one_other h5, if_neg h5, Option.some.injEq]
    constructor
    · intro h
      exact ⟨_, h, rfl⟩
    · rintro ⟨s, h, rfl⟩
      exact h

theorem Parses.member (L : Limits) (cp : Pool) (isMethod : Bool) (seen : Nat) :
    Parses (member L cp isMethod seen) (fun x w => ∃ n, IsMember L cp isMethod x.1 n w ∧ x.2 = seen + n ∧ x.2 ≤ L.attributes) := by
  refine (Parses.u2.bind fun flags => (Parses.utf8Ref cp).bind fun name => (Parses.utf8Ref cp).bind fun descriptor =>
    (Parses.must (if isMethod then (methodType descriptor).isSome = true else isField descriptor = true)).bind fun _ =>
    Parses.attrTable L cp seen (memberStep L cp)
      (fun k => { signature := none, exceptions := none, parameters := none, annotations := [], code := none, seen := k }) fun _ s =>
    (Parses.lift (if isMethod then (methodType descriptor).bind fun m => parameters flags m (s.parameters.getD []) ((s.code.bind (·.locals)).getD [])
      else some (s.parameters.getD []))).bind fun params =>
    Parses.pure (({ flags := flags, name := name, descriptor := descriptor, signature := s.signature, exceptions := s.exceptions.getD [], parameters := params, annotations := s.annotations, firstLine := s.code.bind (fun c => c.lines.getD none) } : Member), s.seen)).congr ?_
  rintro ⟨m, k⟩ w
  constructor
  · rintro ⟨flags, w1, _, rfl, h1, name, w2, _, rfl, h2, descriptor, w3, _, rfl, h3, _, _, _, rfl, ⟨h4, rfl⟩, as, s, wa, _, rfl, h5, h6, h7, params, _, _, rfl,
      ⟨h8, rfl⟩, e, rfl⟩
    obtain ⟨a1, a2, a3, a4, c, a5, a6, a7, a8⟩ := (member_says L cp _ h6 as s).1 h7
    cases e
    refine ⟨as.length + (c.map (·.2)).getD 0, ⟨w1, w2, w3, wa, as, s.exceptions, s.parameters, c, by simp, h1, h2, h3, h5, a1, a2, rfl, a3, a4, a5, ?_, rfl, ?_⟩, ?_, a8⟩
    · simp only [a6]
      cases c <;> rfl
    · cases isMethod with
      | true =>
        simp only [if_true] at h8 ⊢
        obtain ⟨d, hd, h9⟩ := Option.bind_eq_some_iff.1 h8
        have hm := (methodType_iff descriptor d).1 hd
        refine ⟨d, hm, ?_⟩
        have := (parameters_iff flags d _ _ params hm.1).1 h9
        rw [a6] at this
        cases c <;> exact this
      | false =>
        simp only [Bool.false_eq_true, if_false, Option.some.injEq] at h8 h4 ⊢
        exact ⟨(isField_iff descriptor).1 h4, h8.symm⟩
    · rw [a7, Nat.add_assoc]
  · rintro ⟨n, ⟨w1, w2, w3, wa, as, ex, given, c, rfl, h1, h2, h3, h5, a1, a2, e1, a3, a4, a5, e2, rfl, h8⟩, e3, h9⟩
    simp only at e3 h9
    subst e3
    refine ⟨m.flags, w1, w2 ++ (w3 ++ wa), by simp, h1, m.name, w2, w3 ++ wa, rfl, h2, m.descriptor, w3, wa, rfl, h3, (), [], wa, rfl, ⟨?_, rfl⟩, as,
      { signature := m.signature, exceptions := ex, parameters := given, annotations := m.annotations, code := c.map (·.1), seen := seen + as.length + (c.map (·.2)).getD 0 },
      wa, [], by simp, h5, by omega, ?_, m.parameters, [], [], rfl, ⟨?_, rfl⟩, ?_, rfl⟩
    · cases isMethod with
      | true =>
        simp only [if_true] at h8 ⊢
        obtain ⟨d, hd, _⟩ := h8
        rw [(methodType_iff _ d).2 hd]
        rfl
      | false =>
        simp only [Bool.false_eq_true, if_false] at h8 ⊢
        exact (isField_iff _).2 h8.1
    · exact (member_says L cp _ (by omega) as _).2 ⟨a1, a2, a3, a4, c, a5, rfl, rfl, by simp only; omega⟩
    · cases isMethod with
      | true =>
        simp only [if_true] at h8 ⊢
        obtain ⟨d, hd, h10⟩ := h8
        rw [(methodType_iff _ d).2 hd, Option.bind_some, parameters_iff _ d _ _ _ hd.1]
        cases c <;> exact h10
      | false =>
        simp only [Bool.false_eq_true, if_false, Option.some.injEq] at h8 ⊢
        exact h8.2.symm
    · rw [Prod.mk.injEq]
      refine ⟨?_, by simp only; omega⟩
      cases m
      simp only at e1 e2
      subst e1 e2
      simp only [Member.mk.injEq, true_and]
      cases c <;> rfl

theorem Parses.timesSeen {α : Type} {p : Nat → P (α × Nat)} {G : α → Nat → Bytes → Prop} {m : Nat}
    (h : ∀ seen, Parses (p seen) (fun x w => ∃ n, G x.1 n w ∧ x.2 = seen + n ∧ x.2 ≤ m)) (n : Nat) : ∀ seen, seen ≤ m →
    Parses (timesSeen p n seen) (fun x w => ∃ k, x.1.length = n ∧ SeqN G x.1 k w ∧ x.2 = seen + k ∧ x.2 ≤ m) := by
  induction n with
  | zero =>
    intro seen hs
    refine (Parses.pure ([], seen)).congr ?_
    rintro ⟨l, s⟩ w
    constructor
    · rintro ⟨e, rfl⟩
      cases e
      exact ⟨0, rfl, .nil, rfl, hs⟩
    · rintro ⟨k, h1, h2, h3, _⟩
      cases h2 with
      | nil => exact ⟨by simp only [Nat.add_zero] at h3; rw [h3], rfl⟩
      | cons _ _ => simp at h1
  | succ n ih =>
    intro seen hs
    refine ((h seen).bind' (H := fun a c w => ∃ (l : List α × Nat) (w1 : Bytes), w = w1 ∧ (∃ k, l.1.length = n ∧ SeqN G l.1 k w1 ∧ l.2 = a.2 + k ∧ l.2 ≤ m) ∧ c = (a.1 :: l.1, l.2))
      fun a w ha => ?_).congr ?_
    · obtain ⟨_, _, _, h4⟩ := ha
      refine ((ih a.2 h4).bind fun l => Parses.pure (a.1 :: l.1, l.2)).congr ?_
      intro c w
      constructor
      · rintro ⟨l, w1, w2, rfl, h5, rfl, rfl⟩
        exact ⟨l, w1, by simp, h5, rfl⟩
      · rintro ⟨l, w1, rfl, h5, rfl⟩
        exact ⟨l, w, [], by simp, h5, rfl, rfl⟩
    · rintro ⟨l, s⟩ w
      constructor
      · rintro ⟨a, w1, w2, rfl, ⟨n1, h1, h2, h3⟩, ⟨l', s'⟩, _, rfl, ⟨k, h4, h5, h6, h7⟩, e⟩
        cases e
        simp only at h4 h5 h6 h7 ⊢
        exact ⟨n1 + k, by simp [h4], .cons h1 h5, by omega, h7⟩
      · rintro ⟨k, h1, h2, h3, h4⟩
        simp only at h1 h2 h3 h4
        cases h2 with
        | nil => simp at h1
        | @cons a l n1 n2 w w' h5 h6 =>
          exact ⟨(a, seen + n1), w, w', rfl, ⟨n1, h5, rfl, by simp only; omega⟩, (l, s), w', rfl, ⟨n2, by simpa using h1, h6, by simp only; omega, h4⟩, rfl⟩

theorem Parses.tableSeen {α : Type} {p : Nat → P (α × Nat)} {G : α → Nat → Bytes → Prop} {m : Nat} (M : Nat)
    (h : ∀ seen, Parses (p seen) (fun x w => ∃ n, G x.1 n w ∧ x.2 = seen + n ∧ x.2 ≤ m)) (seen : Nat) (hs : seen ≤ m) :
    Parses (ClassFile.count M >>= fun n => ClassFile.timesSeen p n seen) (fun x w => ∃ k, TableN M G x.1 k w ∧ x.2 = seen + k ∧ x.2 ≤ m) := by
  refine ((Parses.count M).bind fun n => Parses.timesSeen h n seen hs).congr ?_
  rintro ⟨l, s⟩ w
  constructor
  · rintro ⟨n, w1, w2, rfl, ⟨h1, h2, rfl⟩, k, rfl, h3, h4, h5⟩
    exact ⟨k, ⟨h2, h1, w2, rfl, h3⟩, h4, h5⟩
  · rintro ⟨k, ⟨h1, h2, w', rfl, h3⟩, h4, h5⟩
    exact ⟨_, _, w', rfl, ⟨h2, h1, rfl⟩, k, rfl, h3, h4, h5⟩

theorem Parses.members (L : Limits) (cp : Pool) (isMethod : Bool) (seen : Nat) (hs : seen ≤ L.attributes) :
    Parses (members L cp isMethod seen) (fun x w => ∃ k, TableN L.members (IsMember L cp isMethod) x.1 k w ∧ x.2 = seen + k ∧ x.2 ≤ L.attributes) :=
  Parses.tableSeen L.members (Parses.member L cp isMethod) seen hs

/-! ### Attributes of classes -/

theorem opt_iff {α : Type} {f : Nat → Option α} {A : Nat → α → Prop} (h : ∀ i a, f i = some a ↔ A i a) (i : Nat) (hi : i < 65536) (o : Option α) :
    (if i = 0 then some none else (f i).map some) = some o ↔ OptRef A o (be2 i) := by
  unfold OptRef
  by_cases h0 : i = 0
  · subst h0
    simp only [if_true, Option.some.injEq]
    constructor
    · rintro rfl
      exact .inl ⟨by simp, by simp⟩
    · rintro (⟨rfl, _⟩ | ⟨a, j, _, h1, h2, h3, _⟩)
      · rfl
      · exfalso
        unfold be2 at h3
        simp only [List.cons.injEq, and_true] at h3
        have e1 := congrArg UInt8.toNat h3.1
        have e2 := congrArg UInt8.toNat h3.2
        simp only [toNat_ofNat_mod] at e1 e2
        omega
  · rw [if_neg h0, Option.map_eq_some_iff]
    constructor
    · rintro ⟨a, h1, rfl⟩
      exact .inr ⟨a, i, rfl, by omega, hi, rfl, (h i a).1 h1⟩
    · rintro (⟨_, h3⟩ | ⟨a, j, rfl, h1, h2, h3, h4⟩)
      · exfalso
        unfold be2 at h3
        simp only [List.cons.injEq, and_true] at h3
        have e1 := congrArg UInt8.toNat h3.1
        have e2 := congrArg UInt8.toNat h3.2
        simp only [toNat_ofNat_mod] at e1 e2
        omega
      · have : i = j := by
          unfold be2 at h3
          simp only [List.cons.injEq, and_true] at h3
          have e1 := congrArg UInt8.toNat h3.1
          have e2 := congrArg UInt8.toNat h3.2
          simp only [toNat_ofNat_mod] at e1 e2
          omega
        subst this
        exact ⟨a, (h i a).2 h4, rfl⟩

theorem optRef_num {α : Type} {A : Nat → α → Prop} {o : Option α} {w : Bytes} (h : OptRef A o w) : ∃ i, Num i w := by
  rcases h with ⟨_, rfl⟩ | ⟨a, i, _, _, h1, rfl, _⟩
  · exact ⟨0, by decide, rfl⟩
  · exact ⟨i, h1, rfl⟩

theorem Parses.innerEntry (cp : Pool) : Parses (innerEntry cp) (IsInner cp) := by
  refine (Parses.u2.bind fun i => (Parses.must (i ≠ 0)).bind fun _ => Parses.u2.bind fun outer => Parses.u2.bind fun name =>
    (Parses.lift (cp.className i)).bind fun inner => (Parses.lift (if outer = 0 then some none else (cp.className outer).map some)).bind fun outer =>
    (Parses.lift (if name = 0 then some none else (cp.utf8 name).map some)).bind fun name => Parses.u2.bind fun flags =>
    Parses.pure ({ inner := inner, outer := outer, name := name, flags := flags } : Inner)).congr ?_
  intro x w
  constructor
  · rintro ⟨i, _, _, rfl, ⟨h1, rfl⟩, _, _, _, rfl, ⟨_, rfl⟩, o, _, _, rfl, ⟨h2, rfl⟩, n, _, _, rfl, ⟨h3, rfl⟩, inner, _, _, rfl, ⟨h4, rfl⟩, outer, _, _, rfl, ⟨h5, rfl⟩,
      name, _, _, rfl, ⟨h6, rfl⟩, flags, w4, _, rfl, h7, rfl, rfl⟩
    exact ⟨be2 i, be2 o, be2 n, w4, by simp, ⟨i, h1, rfl, (className_iff cp i inner).1 h4⟩, (opt_iff (className_iff cp) o h2 outer).1 h5,
      (opt_iff (utf8_iff cp) n h3 name).1 h6, h7⟩
  · rintro ⟨w1, w2, w3, w4, rfl, ⟨i, h1, rfl, h2⟩, h3, h4, h5⟩
    obtain ⟨o, ho, rfl⟩ := optRef_num h3
    obtain ⟨n, hn, rfl⟩ := optRef_num h4
    exact ⟨i, _, be2 o ++ (be2 n ++ w4), by simp only [List.append_assoc], ⟨h1, rfl⟩, (), [], _, rfl, ⟨by have := h2.1; omega, rfl⟩, o, _, _, rfl, ⟨ho, rfl⟩, n, _, _, rfl, ⟨hn, rfl⟩,
      x.inner, [], w4, rfl, ⟨(className_iff cp i _).2 h2, rfl⟩, x.outer, [], w4, rfl, ⟨(opt_iff (className_iff cp) o ho _).2 h3, rfl⟩, x.name, [], w4, rfl,
      ⟨(opt_iff (utf8_iff cp) n hn _).2 h4, rfl⟩, x.flags, w4, [], by simp, h5, rfl, rfl⟩

theorem innerClasses_iff (L : Limits) (cp : Pool) (b : Bytes) (l : List Inner) : innerClasses L cp b = some l ↔ Table L.members (IsInner cp) l b :=
  whole_iff ((Parses.innerEntry cp).table L.members) b l

/-- What was read of the attributes of a component so far. -/
def ComponentSays (L : Limits) (cp : Pool) (as : List (Str × Bytes)) (s : ComponentState) : Prop :=
  One "Signature" (Ref (TextAt cp)) as s.signature ∧ AllAnnotations L cp as s.annotations

theorem component_says (L : Limits) (cp : Pool) (as : List (Str × Bytes)) (s : ComponentState) :
    run (componentStep L cp) { signature := none, annotations := [] } as = some s ↔ ComponentSays L cp as s := by
  refine run_iff (S := ComponentSays L cp) ?_ ?_ as s
  · rintro ⟨a, b⟩
    simp [ComponentSays, one_nil, annotations_nil]
  · rintro as a ⟨x, y⟩
    unfold ComponentSays componentStep
    by_cases h1 : a.1 = "Signature".toList
    · rw [one_same h1, annotations_other (not_annotations (by decide) h1)]
      simp only [if_pos h1]
      constructor
      · rintro ⟨⟨h2, v, hv, h3⟩, h4⟩
        refine ⟨⟨none, y⟩, ⟨h2, h4⟩, ?_⟩
        subst hv
        simp [(signature_iff cp a.2 v).2 h3]
      · rintro ⟨⟨x, _⟩, ⟨h2, h3⟩, h4⟩
        cases x with
        | some _ => simp at h4
        | none =>
          simp only [Option.isSome_none, Bool.false_eq_true, if_false, Option.map_eq_some_iff] at h4
          obtain ⟨v, hv, e⟩ := h4
          cases e
          exact ⟨⟨h2, v, rfl, (signature_iff cp a.2 v).1 hv⟩, h3⟩
    rw [one_other h1]
    simp only [if_neg h1]
    by_cases h4 : isAnnotations a.1 = true
    · rw [annotations_same h4]
      simp only [if_pos h4, Option.map_eq_some_iff]
      constructor
      · rintro ⟨h5, d1, d2, e, h8, h9⟩
        subst e
        exact ⟨⟨x, d1⟩, ⟨h5, h8⟩, d2, (annotations_iff L cp a.2 d2).2 h9, rfl⟩
      · rintro ⟨⟨_, _⟩, ⟨h5, h8⟩, d2, h9, e⟩
        cases e
        exact ⟨h5, _, d2, rfl, h8, (annotations_iff L cp a.2 d2).1 h9⟩
    rw [annotations_other (by simpa using h4)]
    simp only [if_neg h4, Option.some.injEq]
    constructor
    · intro h
      exact ⟨_, h, rfl⟩
    · rintro ⟨s, h, rfl⟩
      exact h

theorem Parses.component (L : Limits) (cp : Pool) (seen : Nat) :
    Parses (component L cp seen) (fun x w => ∃ n, IsComponent L cp x.1 n w ∧ x.2 = seen + n ∧ x.2 ≤ L.attributes) := by
  refine ((Parses.utf8Ref cp).bind fun name => (Parses.utf8Ref cp).bind fun descriptor => (Parses.must (isField descriptor = true)).bind fun _ =>
    Parses.attrTable L cp seen (componentStep L cp) (fun _ => { signature := none, annotations := [] }) fun k s =>
    Parses.pure (({ name := name, descriptor := descriptor, signature := s.signature, annotations := s.annotations } : Component), k)).congr ?_
  rintro ⟨x, k⟩ w
  constructor
  · rintro ⟨name, w1, _, rfl, h1, descriptor, w2, _, rfl, h2, _, _, _, rfl, ⟨h3, rfl⟩, as, s, wa, _, rfl, h4, h5, h6, e, rfl⟩
    cases e
    obtain ⟨h7, h8⟩ := (component_says L cp as s).1 h6
    exact ⟨as.length, ⟨w1, w2, wa, as, by simp, h1, h2, (isField_iff descriptor).1 h3, h4, rfl, h7, h8⟩, rfl, h5⟩
  · rintro ⟨n, ⟨w1, w2, wa, as, rfl, h1, h2, h3, h4, rfl, h5, h6⟩, e, h7⟩
    simp only at e h7
    subst e
    exact ⟨x.name, w1, w2 ++ wa, by simp, h1, x.descriptor, w2, wa, rfl, h2, (), [], wa, rfl, ⟨(isField_iff _).2 h3, rfl⟩, as, ⟨x.signature, x.annotations⟩, wa, [],
      by simp, h4, h7, (component_says L cp as _).2 ⟨h5, h6⟩, rfl, rfl⟩

theorem recordComponents_iff (L : Limits) (cp : Pool) (seen : Nat) (hs : seen ≤ L.attributes) (b : Bytes) (l : List Component) (k : Nat) :
    recordComponents L cp seen b = some (l, k) ↔ ∃ n, TableN L.members (IsComponent L cp) l n b ∧ k = seen + n ∧ k ≤ L.attributes :=
  whole_iff (Parses.tableSeen L.members (Parses.component L cp) seen hs) b (l, k)

theorem Parses.raw2s : Parses ClassFile.u2 (fun n w => Num n w) := Parses.u2

/-- Tables of numbers that are not kept. -/
theorem table_raw {m : Nat} (w : Bytes) : (∃ l : List Nat, Table m (fun n v => Num n v) l w) ↔ ∃ l : List Unit, Table m (fun _ => Raw 2) l w := by
  constructor
  · rintro ⟨l, h1, h2, w', rfl, h3⟩
    refine ⟨l.map fun _ => (), by simpa using h1, by simpa using h2, w', by simp, ?_⟩
    clear h1 h2
    induction h3 with
    | nil => exact .nil
    | cons a _ ih => exact .cons ((raw2_iff _).2 ⟨_, a⟩) ih
  · rintro ⟨l, h1, h2, w', rfl, h3⟩
    have : ∃ l' : List Nat, l'.length = l.length ∧ Seq (fun n v => Num n v) l' w' := by
      clear h1 h2
      induction h3 with
      | nil => exact ⟨[], rfl, .nil⟩
      | cons a _ ih =>
        obtain ⟨l', e, h⟩ := ih
        obtain ⟨n, hn⟩ := (raw2_iff _).1 a
        exact ⟨n :: l', by simp [e], .cons hn h⟩
    obtain ⟨l', e, h⟩ := this
    refine ⟨l', by omega, by omega, w', by rw [e], h⟩

/-- Sequences of values that are not kept. -/
theorem table_map {α β : Type} {m : Nat} {G : α → Bytes → Prop} {H : β → Bytes → Prop} (h : ∀ v, (∃ a, G a v) ↔ ∃ b, H b v) (w : Bytes) :
    (∃ l, Table m G l w) ↔ ∃ l, Table m H l w := by
  have key : ∀ {α β : Type} {G : α → Bytes → Prop} {H : β → Bytes → Prop}, (∀ v, (∃ a, G a v) → ∃ b, H b v) → ∀ {l w}, Seq G l w →
      ∃ l' : List β, l'.length = l.length ∧ Seq H l' w := by
    intro α β G H h l w hs
    induction hs with
    | nil => exact ⟨[], rfl, .nil⟩
    | cons a _ ih =>
      obtain ⟨l', e, h1⟩ := ih
      obtain ⟨b, hb⟩ := h _ ⟨_, a⟩
      exact ⟨b :: l', by simp [e], .cons hb h1⟩
  constructor
  · rintro ⟨l, h1, h2, w', rfl, h3⟩
    obtain ⟨l', e, h4⟩ := key (fun v => (h v).1) h3
    exact ⟨l', by omega, by omega, w', by rw [e], h4⟩
  · rintro ⟨l, h1, h2, w', rfl, h3⟩
    obtain ⟨l', e, h4⟩ := key (fun v => (h v).2) h3
    exact ⟨l', by omega, by omega, w', by rw [e], h4⟩

theorem targets_iff (m : Nat) (v : Bytes) : (∃ l : List Nat, ∃ w1 w2, v = w1 ++ w2 ∧ Raw 4 w1 ∧ Table m (fun n w => Num n w) l w2) ↔
    ∃ l : List Unit, ∃ v1 v2, v = v1 ++ v2 ∧ Raw 4 v1 ∧ Table m (fun _ => Raw 2) l v2 := by
  constructor
  · rintro ⟨l, w1, w2, e, h1, h2⟩
    obtain ⟨l', h3⟩ := (table_raw w2).1 ⟨l, h2⟩
    exact ⟨l', w1, w2, e, h1, h3⟩
  · rintro ⟨l, w1, w2, e, h1, h2⟩
    obtain ⟨l', h3⟩ := (table_raw w2).2 ⟨l, h2⟩
    exact ⟨l', w1, w2, e, h1, h3⟩

theorem provides_iff (m : Nat) (v : Bytes) : (∃ l : List Nat, ∃ w1 w2, v = w1 ++ w2 ∧ Raw 2 w1 ∧ Table m (fun n w => Num n w) l w2) ↔
    ∃ l : List Unit, ∃ v1 v2, v = v1 ++ v2 ∧ Raw 2 v1 ∧ Table m (fun _ => Raw 2) l v2 := by
  constructor
  · rintro ⟨l, w1, w2, e, h1, h2⟩
    obtain ⟨l', h3⟩ := (table_raw w2).1 ⟨l, h2⟩
    exact ⟨l', w1, w2, e, h1, h3⟩
  · rintro ⟨l, w1, w2, e, h1, h2⟩
    obtain ⟨l', h3⟩ := (table_raw w2).2 ⟨l, h2⟩
    exact ⟨l', w1, w2, e, h1, h3⟩

theorem Parses.exportsOrOpens (L : Limits) : Parses (exportsOrOpens L) (fun _ w => ∃ l : List (List Unit),
    Table L.members (fun l v => ∃ v1 v2, v = v1 ++ v2 ∧ Raw 4 v1 ∧ Table L.members (fun _ => Raw 2) l v2) l w) := by
  refine (Parses.tableThen L.members (Parses.u2Skip2 (Parses.u2.table L.members)) fun _ => Parses.pure ()).congr ?_
  intro a w
  rw [← table_map (targets_iff L.members)]
  constructor
  · rintro ⟨l, w1, w2, rfl, h, _, rfl⟩
    rw [List.append_nil]
    exact ⟨l, h⟩
  · rintro ⟨l, h⟩
    exact ⟨l, w, [], by simp, h, rfl, rfl⟩

theorem moduleNameAttr_iff (L : Limits) (cp : Pool) (b : Bytes) (name : Str) : moduleName L cp b = some name ↔ IsModule L cp name b := by
  refine (whole_iff (Parses.u2.bind fun i => (Parses.lift (cp.moduleName i)).bind fun name => Parses.u2Skip ((Parses.optionalRef (utf8_iff cp)).bind fun _ =>
    Parses.tableThen L.members (Parses.u2Skip2 (Parses.optionalRef (utf8_iff cp))) fun _ => (Parses.exportsOrOpens L).bind fun _ => (Parses.exportsOrOpens L).bind fun _ =>
    Parses.tableThen L.members Parses.u2 fun _ => Parses.tableThen L.members (Parses.u2Skip (Parses.u2.table L.members)) fun _ => Parses.pure name)) b name).trans ?_
  constructor
  · rintro ⟨i, w1, _, rfl, ⟨h1, rfl⟩, name, _, _, rfl, ⟨h2, rfl⟩, w2, _, rfl, h3, version, w3, _, rfl, h4, requires, w4, _, rfl, h5, _, w5, _, rfl, ⟨ex, h6⟩, _, w6, _, rfl, ⟨op, h7⟩,
      us, w7, _, rfl, h8, pr, w8, _, rfl, h9, rfl, rfl⟩
    obtain ⟨us', h8⟩ := (table_raw w7).1 ⟨us, h8⟩
    obtain ⟨pr', h9⟩ := (table_map (provides_iff L.members) w8).1 ⟨pr, h9⟩
    exact ⟨be2 i, w2, w3, w4, w5, w6, w7, w8, version, requires, ex, op, pr', us', by simp, ⟨i, h1, rfl, (moduleName_iff cp i _).1 h2⟩, h3, h4, h5, h6, h7, h8, h9⟩
  · rintro ⟨w1, w2, w3, w4, w5, w6, w7, w8, version, requires, ex, op, pr, us, rfl, ⟨i, h1, rfl, h2⟩, h3, h4, h5, h6, h7, h8, h9⟩
    obtain ⟨us', h8⟩ := (table_raw w7).2 ⟨us, h8⟩
    obtain ⟨pr', h9⟩ := (table_map (provides_iff L.members) w8).2 ⟨pr, h9⟩
    exact ⟨i, be2 i, w2 ++ (w3 ++ (w4 ++ (w5 ++ (w6 ++ (w7 ++ w8))))), by simp only [List.append_assoc], ⟨h1, rfl⟩, name, [], _, rfl, ⟨(moduleName_iff cp i _).2 h2, rfl⟩, w2, _, rfl, h3,
      version, w3, _, rfl, h4, requires, w4, _, rfl, h5, (), w5, _, rfl, ⟨ex, h6⟩, (), w6, _, rfl, ⟨op, h7⟩, us', w7, w8, rfl, h8, pr', w8, [], by simp, h9, rfl, rfl⟩

end Verif.ClassFile
