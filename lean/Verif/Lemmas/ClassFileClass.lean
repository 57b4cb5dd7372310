import Verif.Lemmas.ClassFileParts

/-! Classes: what the parser decides. -/
namespace Verif.ClassFile

open Jvm

/-- What was read of the attributes of a class so far. -/
def ClassSays (L : Limits) (cp : Pool) (k : Nat) (as : List (Str × Bytes)) (s : ClassState) : Prop :=
  One "SourceFile" (Ref (TextAt cp)) as s.sourceFile ∧ One "Signature" (Ref (TextAt cp)) as s.signature ∧ AllAnnotations L cp as s.annotations ∧
  One "InnerClasses" (Table L.members (IsInner cp)) as s.inner ∧ One "Module" (IsModule L cp) as s.moduleName ∧
  ∃ c : Option (List Component × Nat), One "Record" (fun x v => TableN L.members (IsComponent L cp) x.1 x.2 v) as c ∧ s.components = c.map (·.1) ∧
    s.seen = k + (c.map (·.2)).getD 0 ∧ s.seen ≤ L.attributes

theorem class_says (L : Limits) (cp : Pool) (k : Nat) (hk : k ≤ L.attributes) (as : List (Str × Bytes)) (s : ClassState) :
    run (classStep L cp) { sourceFile := none, signature := none, annotations := [], inner := none, components := none, moduleName := none, seen := k } as = some s ↔
      ClassSays L cp k as s := by
  refine run_iff (S := ClassSays L cp k) ?_ ?_ as s
  · rintro ⟨a, b, c, d, e, f, g⟩
    simp only [ClassSays, one_nil, annotations_nil, ClassState.mk.injEq]
    constructor
    · rintro ⟨rfl, rfl, rfl, rfl, rfl, c, rfl, rfl, rfl, _⟩
      simp
    · rintro ⟨rfl, rfl, rfl, rfl, rfl, rfl, rfl⟩
      exact ⟨rfl, rfl, rfl, rfl, rfl, none, rfl, rfl, rfl, hk⟩
  · rintro as a ⟨sf, sg, an, ic, co, mo, seen⟩
    unfold ClassSays classStep
    by_cases h1 : a.1 = "SourceFile".toList
    · rw [one_same h1, one_other (name := "Signature") (by rw [h1]; decide), annotations_other (not_annotations (by decide) h1),
        one_other (name := "InnerClasses") (by rw [h1]; decide), one_other (name := "Module") (by rw [h1]; decide)]
      simp only [one_other (name := "Record") (a := a) (show a.1 ≠ "Record".toList by rw [h1]; decide), if_pos h1]
      constructor
      · rintro ⟨⟨h2, v, hv, h3⟩, h4⟩
        refine ⟨⟨none, sg, an, ic, co, mo, seen⟩, ⟨h2, h4⟩, ?_⟩
        subst hv
        simp [(signature_iff cp a.2 v).2 h3]
      · rintro ⟨⟨x, _, _, _, _, _, _⟩, ⟨h2, h3⟩, h4⟩
        cases x with
        | some _ => simp at h4
        | none =>
          simp only [Option.isSome_none, Bool.false_eq_true, if_false, Option.map_eq_some_iff] at h4
          obtain ⟨v, hv, e⟩ := h4
          cases e
          exact ⟨⟨h2, v, rfl, (signature_iff cp a.2 v).1 hv⟩, h3⟩
    rw [one_other h1]
    simp only [if_neg h1]
    by_cases h2 : a.1 = "Signature".toList
    · rw [one_same h2, annotations_other (not_annotations (by decide) h2), one_other (name := "InnerClasses") (by rw [h2]; decide),
        one_other (name := "Module") (by rw [h2]; decide)]
      simp only [one_other (name := "Record") (a := a) (show a.1 ≠ "Record".toList by rw [h2]; decide), if_pos h2]
      constructor
      · rintro ⟨h4, ⟨h3, v, hv, h5⟩, h6⟩
        refine ⟨⟨sf, none, an, ic, co, mo, seen⟩, ⟨h4, h3, h6⟩, ?_⟩
        subst hv
        simp [(signature_iff cp a.2 v).2 h5]
      · rintro ⟨⟨_, x, _, _, _, _, _⟩, ⟨h3, h5, h6⟩, h4⟩
        cases x with
        | some _ => simp at h4
        | none =>
          simp only [Option.isSome_none, Bool.false_eq_true, if_false, Option.map_eq_some_iff] at h4
          obtain ⟨v, hv, e⟩ := h4
          cases e
          exact ⟨h3, ⟨h5, v, rfl, (signature_iff cp a.2 v).1 hv⟩, h6⟩
    rw [one_other h2]
    simp only [if_neg h2]
    by_cases h4 : isAnnotations a.1 = true
    · rw [annotations_same h4, one_other (name := "InnerClasses") (other_of_annotations h4 (by decide)), one_other (name := "Module") (other_of_annotations h4 (by decide))]
      simp only [one_other (name := "Record") (a := a) (other_of_annotations h4 (by decide)), if_pos h4, Option.map_eq_some_iff]
      constructor
      · rintro ⟨h5, h6, ⟨d1, d2, e, h8, h9⟩, h10⟩
        subst e
        exact ⟨⟨sf, sg, d1, ic, co, mo, seen⟩, ⟨h5, h6, h8, h10⟩, d2, (annotations_iff L cp a.2 d2).2 h9, rfl⟩
      · rintro ⟨⟨_, _, _, _, _, _, _⟩, ⟨h5, h6, h8, h10⟩, d2, h9, e⟩
        cases e
        exact ⟨h5, h6, ⟨_, d2, rfl, h8, (annotations_iff L cp a.2 d2).1 h9⟩, h10⟩
    rw [annotations_other (by simpa using h4)]
    simp only [if_neg h4]
    by_cases h3 : a.1 = "InnerClasses".toList
    · rw [one_same h3, one_other (name := "Module") (by rw [h3]; decide)]
      simp only [one_other (name := "Record") (a := a) (show a.1 ≠ "Record".toList by rw [h3]; decide), if_pos h3]
      constructor
      · rintro ⟨h4, h5, h9, ⟨h6, v, hv, h7⟩, h8⟩
        refine ⟨⟨sf, sg, an, none, co, mo, seen⟩, ⟨h4, h5, h9, h6, h8⟩, ?_⟩
        subst hv
        simp [(innerClasses_iff L cp a.2 v).2 h7]
      · rintro ⟨⟨_, _, _, x, _, _, _⟩, ⟨h4, h5, h9, h6, h7⟩, h8⟩
        cases x with
        | some _ => simp at h8
        | none =>
          simp only [Option.isSome_none, Bool.false_eq_true, if_false, Option.map_eq_some_iff] at h8
          obtain ⟨v, hv, e⟩ := h8
          cases e
          exact ⟨h4, h5, h9, ⟨h6, v, rfl, (innerClasses_iff L cp a.2 v).1 hv⟩, h7⟩
    rw [one_other h3]
    simp only [if_neg h3]
    by_cases h5 : a.1 = "Record".toList
    · rw [one_other (name := "Module") (by rw [h5]; decide)]
      simp only [one_same h5, if_pos h5]
      constructor
      · rintro ⟨h6, h7, h8, h9, h15, c, ⟨h10, ⟨v, n⟩, rfl, h11⟩, h12, h13, h14⟩
        simp only [Option.map_some, Option.getD_some] at h12 h13
        subst h12 h13
        refine ⟨⟨sf, sg, an, ic, none, mo, k⟩, ⟨h6, h7, h8, h9, h15, none, h10, rfl, by simp, hk⟩, ?_⟩
        simp [(recordComponents_iff L cp k hk a.2 v (k + n)).2 ⟨n, h11, rfl, h14⟩]
      · rintro ⟨⟨_, _, _, _, x, _, y⟩, ⟨h6, h7, h8, h9, h15, c, h10, h11, h12, h13⟩, h14⟩
        cases x with
        | some _ => simp at h14
        | none =>
          simp only [Option.isSome_none, Bool.false_eq_true, if_false, Option.map_eq_some_iff] at h14
          obtain ⟨⟨v, n'⟩, hv, e⟩ := h14
          cases e
          simp only at h11 h12 h13
          cases c with
          | some _ => simp at h11
          | none =>
            simp only [Option.map_none, Option.getD_none, Nat.add_zero] at h12
            subst h12
            obtain ⟨n, h16, rfl, h17⟩ := (recordComponents_iff L cp y h13 a.2 v n').1 hv
            exact ⟨h6, h7, h8, h9, h15, some (v, n), ⟨h10, (v, n), rfl, h16⟩, rfl, rfl, h17⟩
    simp only [one_other h5, if_neg h5]
    by_cases h6 : a.1 = "Module".toList
    · rw [one_same h6]
      simp only [if_pos h6]
      constructor
      · rintro ⟨h4, h5, h9, h10, ⟨h6, v, hv, h7⟩, h8⟩
        refine ⟨⟨sf, sg, an, ic, co, none, seen⟩, ⟨h4, h5, h9, h10, h6, h8⟩, ?_⟩
        subst hv
        simp [(moduleNameAttr_iff L cp a.2 v).2 h7]
      · rintro ⟨⟨_, _, _, _, _, x, _⟩, ⟨h4, h5, h9, h10, h6, h7⟩, h8⟩
        cases x with
        | some _ => simp at h8
        | none =>
          simp only [Option.isSome_none, Bool.false_eq_true, if_false, Option.map_eq_some_iff] at h8
          obtain ⟨v, hv, e⟩ := h8
          cases e
          exact ⟨h4, h5, h9, h10, ⟨h6, v, rfl, (moduleNameAttr_iff L cp a.2 v).1 hv⟩, h7⟩
    rw [one_other h6]
    simp only [if_neg h6, Option.some.injEq]
    constructor
    · intro h
      exact ⟨_, h, rfl⟩
    · rintro ⟨s, h, rfl⟩
      exact h

/-- The last part of a class: fields, methods and attributes. -/
def ClassTail (L : Limits) (cp : Pool) (c : List Member × List Member × ClassState) (w : Bytes) : Prop :=
  ∃ w4 w5 wa as n1 n2, w = w4 ++ w5 ++ wa ∧ TableN L.members (IsMember L cp false) c.1 n1 w4 ∧ TableN L.members (IsMember L cp true) c.2.1 n2 w5 ∧
    Attrs L cp as wa ∧ n1 + n2 + as.length ≤ L.attributes ∧ ClassSays L cp (n1 + n2 + as.length) as c.2.2

theorem Parses.classTail {β : Type} (L : Limits) (cp : Pool) {q : List Member → List Member → ClassState → β} :
    Parses (ClassFile.members L cp false 0 >>= fun fields => ClassFile.members L cp true fields.2 >>= fun methods =>
      ClassFile.attributeCount L methods.2 >>= fun k =>
      ClassFile.attributes L cp (classStep L cp) k.1 { sourceFile := none, signature := none, annotations := [], inner := none, components := none, moduleName := none, seen := k.2 } >>= fun s =>
      Pure.pure (q fields.1 methods.1 s))
      (fun x w => ∃ c, ClassTail L cp c w ∧ x = q c.1 c.2.1 c.2.2) := by
  refine ((Parses.members L cp false 0 (Nat.zero_le _)).bind' (H := fun fields x w => ∃ methods s w1 w2 as k, w = w1 ++ w2 ∧
      TableN L.members (IsMember L cp true) methods k w1 ∧ Attrs L cp as w2 ∧ fields.2 + k + as.length ≤ L.attributes ∧
      ClassSays L cp (fields.2 + k + as.length) as s ∧ x = q fields.1 methods s) fun fields w hf => ?_).congr ?_
  · obtain ⟨_, _, _, hle⟩ := hf
    refine ((Parses.members L cp true fields.2 hle).bind fun methods =>
      Parses.attrTable L cp methods.2 (classStep L cp)
        (fun k => { sourceFile := none, signature := none, annotations := [], inner := none, components := none, moduleName := none, seen := k })
        fun _ s => Parses.pure (q fields.1 methods.1 s)).congr ?_
    intro x w
    constructor
    · rintro ⟨⟨methods, k'⟩, w1, _, rfl, ⟨k, h1, h2, h3⟩, as, s, w2, _, rfl, h4, h5, h6, rfl, rfl⟩
      simp only at h1 h2 h3 h4 h5 h6 ⊢
      subst h2
      exact ⟨methods, s, w1, w2, as, k, by simp, h1, h4, h5, (class_says L cp _ h5 as s).1 h6, rfl⟩
    · rintro ⟨methods, s, w1, w2, as, k, rfl, h1, h2, h3, h4, rfl⟩
      exact ⟨(methods, fields.2 + k), w1, w2, rfl, ⟨k, h1, rfl, by simp only; omega⟩, as, s, w2, [], by simp, h2, h3, (class_says L cp _ h3 as s).2 h4, rfl, rfl⟩
  · intro x w
    constructor
    · rintro ⟨⟨fields, f⟩, w4, _, rfl, ⟨n1, h1, h2, h3⟩, methods, s, w5, wa, as, n2, rfl, h4, h5, h6, h7, rfl⟩
      simp only [Nat.zero_add] at h1 h2 h3 h4 h5 h6 h7 ⊢
      subst h2
      exact ⟨(fields, methods, s), ⟨w4, w5, wa, as, f, n2, by simp, h1, h4, h5, h6, h7⟩, rfl⟩
    · rintro ⟨⟨fields, methods, s⟩, ⟨w4, w5, wa, as, n1, n2, rfl, h1, h2, h3, h4, h5⟩, rfl⟩
      exact ⟨(fields, n1), w4, w5 ++ wa, by simp, ⟨n1, h1, by simp, by simp only; omega⟩, methods, s, w5, wa, as, n2, rfl, h2, h3, h4, h5, rfl⟩

theorem Parses.classFile (L : Limits) : Parses (classFile L) (IsClass L) := by
  refine (Parses.u4.bind fun magic => (Parses.must (magic = 0xcafebabe)).bind fun _ => Parses.u2.bind fun minor => Parses.u2.bind fun major =>
    (Parses.constantPool L).bind fun cp => Parses.u2.bind fun flags => Parses.u2.bind fun this => Parses.u2.bind fun super =>
    (Parses.lift (cp.className this)).bind fun name => (Parses.lift (if super = 0 then some none else (cp.className super).map some)).bind fun superName =>
    Parses.tableThen L.members (Parses.classRef cp) fun interfaces =>
    Parses.classTail L cp (q := fun fields methods s =>
      ({ minor := minor, major := major, flags := flags, name := name, super := superName, interfaces := interfaces, fields := fields, methods := methods, sourceFile := s.sourceFile, signature := s.signature, annotations := s.annotations, inner := s.inner.getD [], components := s.components.getD [], moduleName := s.moduleName } : Class))).congr ?_
  intro c w
  constructor
  · rintro ⟨magic, _, _, rfl, ⟨_, rfl⟩, _, _, _, rfl, ⟨rfl, rfl⟩, minor, _, _, rfl, ⟨h1, rfl⟩, major, _, _, rfl, ⟨h2, rfl⟩, cp, wp, _, rfl, h3, flags, _, _, rfl, ⟨h4, rfl⟩,
      this, _, _, rfl, ⟨h5, rfl⟩, super, _, _, rfl, ⟨h6, rfl⟩, name, _, _, rfl, ⟨h7, rfl⟩, superName, _, _, rfl, ⟨h8, rfl⟩, interfaces, w3, _, rfl, h9,
      ⟨fields, methods, s⟩, ⟨w4, w5, wa, as, n1, n2, rfl, h10, h11, h12, h13, a1, a2, a3, a4, a5, cs, a6, a7, a8, a9⟩, rfl⟩
    refine ⟨cp, wp, be2 this, be2 super, w3, w4, w5, wa, as, n1, n2, s.inner, cs, by simp, h1, h2, h4, h3, ⟨this, h5, rfl, (className_iff cp this _).1 h7⟩,
      (opt_iff (className_iff cp) super h6 _).1 h8, h9, h10, h11, h12, a1, a2, a3, a4, rfl, a6, ?_, a5, ?_⟩
    · show s.components.getD [] = _
      rw [show s.components = cs.map (·.1) from a7]
    · omega
  · rintro ⟨cp, wp, w1, w2, w3, w4, w5, wa, as, n1, n2, inner, cs, rfl, h1, h2, h4, h3, ⟨this, h5, rfl, h7⟩, h8, h9, h10, h11, h12, a1, a2, a3, a4, e1, a6, e2, a5, h13⟩
    obtain ⟨super, h6, rfl⟩ := optRef_num h8
    refine ⟨0xcafebabe, _, be2 c.minor ++ (be2 c.major ++ (wp ++ (be2 c.flags ++ (be2 this ++ (be2 super ++ (w3 ++ (w4 ++ w5 ++ wa))))))), by simp only [List.append_assoc],
      ⟨by decide, rfl⟩, (), [], _, rfl, ⟨rfl, rfl⟩, c.minor, _, _, rfl, ⟨h1, rfl⟩, c.major, _, _, rfl, ⟨h2, rfl⟩, cp, wp, _, rfl, h3, c.flags, _, _, rfl, ⟨h4, rfl⟩,
      this, _, _, rfl, ⟨h5, rfl⟩, super, _, _, rfl, ⟨h6, rfl⟩, c.name, [], _, rfl, ⟨(className_iff cp this _).2 h7, rfl⟩, c.super, [], _, rfl,
      ⟨(opt_iff (className_iff cp) super h6 _).2 h8, rfl⟩, c.interfaces, w3, _, rfl, h9,
      (c.fields, c.methods, { sourceFile := c.sourceFile, signature := c.signature, annotations := c.annotations, inner := inner, components := cs.map (·.1), moduleName := c.moduleName, seen := n1 + n2 + as.length + (cs.map (·.2)).getD 0 }),
      ⟨w4, w5, wa, as, n1, n2, rfl, h10, h11, h12, by omega, a1, a2, a3, a4, a5, cs, a6, rfl, rfl, h13⟩, ?_⟩
    cases c
    simp only at e1 e2
    subst e1 e2
    rfl

/-- Classes are read exactly. -/
theorem parseClass_iff (L : Limits) (b : Bytes) (c : Class) : parseClass L b = some c ↔ b.length ≤ L.classBytes ∧ IsClass L c b := by
  unfold parseClass
  split
  · rename_i h
    constructor
    · intro e; cases e
    · rintro ⟨e, _⟩; omega
  · rename_i h
    rw [whole_iff (Parses.classFile L)]
    exact ⟨fun e => ⟨by omega, e⟩, fun e => e.2⟩

/-! ### Limits -/

/-- Limits that allow all that others allow. -/
def Limits.le (L L' : Limits) : Prop :=
  L.classBytes ≤ L'.classBytes ∧ L.pool ≤ L'.pool ∧ L.members ≤ L'.members ∧ L.attributes ≤ L'.attributes ∧ L.attributeBytes ≤ L'.attributeBytes ∧
  L.annotations ≤ L'.annotations ∧ L.depth ≤ L'.depth

section
variable {L L' : Limits} (h : L.le L')
include h

theorem Table.mono {α : Type} {m m' : Nat} {G G' : α → Bytes → Prop} {l : List α} {w : Bytes} (t : Table m G l w) (hm : m ≤ m')
    (e : ∀ a w', G a w' → G' a w') : Table m' G' l w := by
  obtain ⟨h1, h2, w', h3, h4⟩ := t
  exact ⟨h1, by omega, w', h3, h4.congr fun a w' _ => e a w'⟩

theorem TableN.mono {α : Type} {m m' n : Nat} {G G' : α → Nat → Bytes → Prop} {l : List α} {w : Bytes} (t : TableN m G l n w) (hm : m ≤ m')
    (e : ∀ a n w', G a n w' → G' a n w') : TableN m' G' l n w := by
  obtain ⟨h1, h2, w', h3, h4⟩ := t
  refine ⟨h1, by omega, w', h3, ?_⟩
  clear h1 h2 h3
  induction h4 with
  | nil => exact .nil
  | cons a _ ih => exact .cons (e _ _ _ a) ih

theorem One.mono {α : Type} {name : String} {G G' : α → Bytes → Prop} {as : List (Str × Bytes)} {o : Option α} (t : One name G as o)
    (e : ∀ a w', G a w' → G' a w') : One name G' as o := by
  rcases t with t | ⟨c, a, h1, h2, h3⟩
  · exact .inl t
  · exact .inr ⟨c, a, h1, h2, e a c h3⟩

theorem IsAnnotation.mono {cp : Pool} {V V' : Nat → Bytes → Prop} {depth : Nat} {d : Str} {w : Bytes} (t : IsAnnotation L cp V depth d w)
    (e : ∀ w', V depth w' → V' depth w') : IsAnnotation L' cp V' depth d w := by
  obtain ⟨h1, h2, w1, w2, h3, h4, names, h5⟩ := t
  refine ⟨Nat.le_trans h1 h.2.2.2.2.2.2, h2, w1, w2, h3, h4, names, Table.mono h h5 h.2.2.2.2.2.1 ?_⟩
  rintro a w' ⟨v1, v2, e1, e2, e3⟩
  exact ⟨v1, v2, e1, e2, e v2 e3⟩

theorem IsValue.mono {cp : Pool} (n : Nat) : ∀ {depth : Nat} {w : Bytes}, IsValue L cp n depth w → IsValue L' cp n depth w := by
  induction n with
  | zero => intro depth w t; exact t
  | succ n ih =>
    intro depth w t
    rw [IsValue] at t ⊢
    rcases t with t | t | ⟨d, x, e, t⟩ | ⟨l, x, e, t⟩
    · exact .inl t
    · exact .inr (.inl t)
    · exact .inr (.inr (.inl ⟨d, x, e, IsAnnotation.mono h t fun _ => ih⟩))
    · exact .inr (.inr (.inr ⟨l, x, e, Table.mono h t h.2.2.2.2.2.1 fun _ _ => ih⟩))

theorem AreAnnotations.mono {cp : Pool} {ds : List Str} {w : Bytes} (t : AreAnnotations L cp ds w) : AreAnnotations L' cp ds w := by
  obtain ⟨n, t⟩ := t
  exact ⟨n, Table.mono h t h.2.2.2.2.2.1 fun d w' t => IsAnnotation.mono h t fun _ => IsValue.mono h n⟩

theorem AllAnnotations.mono {cp : Pool} {as : List (Str × Bytes)} {ds : List Str} (t : AllAnnotations L cp as ds) : AllAnnotations L' cp as ds := by
  obtain ⟨ls, e, t⟩ := t
  refine ⟨ls, e, ?_⟩
  clear e
  revert t
  generalize (as.filter fun a => decide (a.1 = "RuntimeVisibleAnnotations".toList ∨ a.1 = "RuntimeInvisibleAnnotations".toList)).map (·.2) = cs
  intro t
  induction t with
  | nil => exact .nil
  | cons a _ ih => exact .cons (AreAnnotations.mono h a) ih

theorem Attrs.mono {cp : Pool} {as : List (Str × Bytes)} {w : Bytes} (t : Attrs L cp as w) : Attrs L' cp as w := by
  obtain ⟨h1, w', h2, h3⟩ := t
  refine ⟨h1, w', h2, h3.congr ?_⟩
  rintro a w'' _ ⟨e1, e2, e3⟩
  exact ⟨e1, Nat.le_trans e2 h.2.2.2.2.1, e3⟩

theorem IsCode.mono {cp : Pool} {c : CodeState} {n : Nat} {w : Bytes} (t : IsCode L cp c n w) : IsCode L' cp c n w := by
  obtain ⟨head, body, hs, wa, k, as, e, h1, h2, h3, h4, h5, h6, h7, h8, h9, h10⟩ := t
  refine ⟨head, body, hs, wa, k, as, e, h1, h2, Nat.le_trans h3 h.2.2.2.2.1, h4, Nat.le_trans h5 h.2.2.1, h6, Attrs.mono h h7, h8, One.mono h h9 ?_,
    One.mono h h10 fun a w' t => Table.mono h t h.2.2.1 fun _ _ => id⟩
  rintro a w' ⟨lines, t, e⟩
  exact ⟨lines, Table.mono h t h.2.2.1 fun _ _ => id, e⟩

theorem IsMember.mono {cp : Pool} {isMethod : Bool} {m : Member} {n : Nat} {w : Bytes} (t : IsMember L cp isMethod m n w) : IsMember L' cp isMethod m n w := by
  obtain ⟨w1, w2, w3, wa, as, ex, given, c, e, h1, h2, h3, h4, h5, h6, h7, h8, h9, h10, h11, h12, h13⟩ := t
  refine ⟨w1, w2, w3, wa, as, ex, given, c, e, h1, h2, h3, Attrs.mono h h4, h5, One.mono h h6 fun a w' t => Table.mono h t h.2.2.1 fun _ _ => id, h7, One.mono h h8 ?_,
    AllAnnotations.mono h h9, One.mono h h10 fun x v => IsCode.mono h, h11, h12, h13⟩
  rintro a w' ⟨raw, w'', e1, e2, e3⟩
  exact ⟨raw, w'', e1, Nat.le_trans e2 h.2.2.1, e3⟩

theorem IsComponent.mono {cp : Pool} {x : Component} {n : Nat} {w : Bytes} (t : IsComponent L cp x n w) : IsComponent L' cp x n w := by
  obtain ⟨w1, w2, wa, as, e, h1, h2, h3, h4, h5, h6, h7⟩ := t
  exact ⟨w1, w2, wa, as, e, h1, h2, h3, Attrs.mono h h4, h5, h6, AllAnnotations.mono h h7⟩

theorem IsModule.mono {cp : Pool} {name : Str} {w : Bytes} (t : IsModule L cp name w) : IsModule L' cp name w := by
  obtain ⟨w1, w2, w3, w4, w5, w6, w7, w8, version, requires, exports, opens, provides, uses, e, h1, h2, h3, h4, h5, h6, h7, h8⟩ := t
  have key : ∀ {k : Nat} (l : List Unit) (v : Bytes), (∃ v1 v2, v = v1 ++ v2 ∧ Raw k v1 ∧ Table L.members (fun _ => Raw 2) l v2) →
      ∃ v1 v2, v = v1 ++ v2 ∧ Raw k v1 ∧ Table L'.members (fun _ => Raw 2) l v2 := by
    rintro k l v ⟨v1, v2, e1, e2, e3⟩
    exact ⟨v1, v2, e1, e2, Table.mono h e3 h.2.2.1 fun _ _ => id⟩
  exact ⟨w1, w2, w3, w4, w5, w6, w7, w8, version, requires, exports, opens, provides, uses, e, h1, h2, h3, Table.mono h h4 h.2.2.1 fun _ _ => id,
    Table.mono h h5 h.2.2.1 key, Table.mono h h6 h.2.2.1 key, Table.mono h h7 h.2.2.1 fun _ _ => id, Table.mono h h8 h.2.2.1 key⟩

theorem IsClass.mono {c : Class} {w : Bytes} (t : IsClass L c w) : IsClass L' c w := by
  obtain ⟨cp, wp, w1, w2, w3, w4, w5, wa, as, n1, n2, inner, cs, e, h1, h2, h3, ⟨p1, p2, p3⟩, h5, h6, h7, h8, h9, h10, h11, h12, h13, h14, h15, h16, h17, h18, h19⟩ := t
  exact ⟨cp, wp, w1, w2, w3, w4, w5, wa, as, n1, n2, inner, cs, e, h1, h2, h3, ⟨p1, Nat.le_trans p2 h.2.1, p3⟩, h5, h6, Table.mono h h7 h.2.2.1 fun _ _ => id,
    TableN.mono h h8 h.2.2.1 fun _ _ _ => IsMember.mono h, TableN.mono h h9 h.2.2.1 fun _ _ _ => IsMember.mono h, Attrs.mono h h10, h11, h12, AllAnnotations.mono h h13,
    One.mono h h14 fun _ _ t => Table.mono h t h.2.2.1 fun _ _ => id, h15, One.mono h h16 fun _ _ t => TableN.mono h t h.2.2.1 fun _ _ _ => IsComponent.mono h, h17,
    One.mono h h18 fun _ _ => IsModule.mono h, Nat.le_trans h19 h.2.2.2.1⟩

end

end Verif.ClassFile
