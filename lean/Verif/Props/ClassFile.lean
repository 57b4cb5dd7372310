import Verif.Lemmas.ClassFileClass

/-! Property C58: class files are read as the format of class files says, and nothing else is read. -/
namespace Verif.ClassFile

open Jvm

/-- A class is read from bytes exactly if they are an encoding of it within the limits. -/
theorem c58_exact (L : Limits) (b : Bytes) (c : Class) : parseClass L b = some c ↔ b.length ≤ L.classBytes ∧ IsClass L c b := parseClass_iff L b c

/-- Limits that allow all that others allow. -/
theorem c58_limits_monotone {L L' : Limits} (h : L.le L') {b : Bytes} {c : Class} (hc : parseClass L b = some c) : parseClass L' b = some c := by
  rw [c58_exact] at hc ⊢
  exact ⟨Nat.le_trans hc.1 h.1, IsClass.mono h hc.2⟩

def Limits.max (L L' : Limits) : Limits :=
  { classBytes := Nat.max L.classBytes L'.classBytes, pool := Nat.max L.pool L'.pool, members := Nat.max L.members L'.members, attributes := Nat.max L.attributes L'.attributes, attributeBytes := Nat.max L.attributeBytes L'.attributeBytes, annotations := Nat.max L.annotations L'.annotations, depth := Nat.max L.depth L'.depth }

theorem le_max_left (L L' : Limits) : L.le (L.max L') :=
  ⟨Nat.le_max_left _ _, Nat.le_max_left _ _, Nat.le_max_left _ _, Nat.le_max_left _ _, Nat.le_max_left _ _, Nat.le_max_left _ _, Nat.le_max_left _ _⟩

theorem le_max_right (L L' : Limits) : L'.le (L.max L') :=
  ⟨Nat.le_max_right _ _, Nat.le_max_right _ _, Nat.le_max_right _ _, Nat.le_max_right _ _, Nat.le_max_right _ _, Nat.le_max_right _ _, Nat.le_max_right _ _⟩

/-- No class file is the beginning of another one, whatever the limits, and bytes are of one class only: files that are cut off or have bytes appended are rejected. -/
theorem c58_no_prefix {L L' : Limits} {w r : Bytes} {c c' : Class} (h : IsClass L c w) (h' : IsClass L' c' (w ++ r)) : r = [] ∧ c = c' := by
  have h1 := (Parses.classFile (L.max L') (w ++ r) c r).2 ⟨w, rfl, IsClass.mono (le_max_left L L') h⟩
  have h2 := (Parses.classFile (L.max L') (w ++ r) c' []).2 ⟨w ++ r, by simp, IsClass.mono (le_max_right L L') h'⟩
  rw [h1] at h2
  cases h2
  exact ⟨rfl, rfl⟩

theorem c58_truncated_and_extended {L L' : Limits} {b r : Bytes} {c : Class} (h : parseClass L b = some c) (hr : r ≠ []) :
    parseClass L' (b ++ r) = none ∧ ∀ w, b = w ++ r → parseClass L' w = none := by
  rw [c58_exact] at h
  constructor
  · cases hp : parseClass L' (b ++ r) with
    | none => rfl
    | some c' => exact absurd (c58_no_prefix h.2 ((c58_exact L' _ c').1 hp).2).1 hr
  · rintro w rfl
    cases hp : parseClass L' w with
    | none => rfl
    | some c' => exact absurd (c58_no_prefix ((c58_exact L' _ c').1 hp).2 h.2).1 hr

/-- Strings are read from their modified UTF-8 and from nothing else. -/
theorem c58_strings (b : Bytes) (s : Str) : decode b = some (some s) ↔ b = mutf8 s := by
  rw [decode_iff]
  constructor
  · rintro ⟨us, _, rfl, h⟩
    rw [(h s).1 rfl]
    rfl
  · rintro rfl
    have hu : ∀ u ∈ s.flatMap utf16, u < 65536 := by
      intro u hu
      obtain ⟨c, _, hc⟩ := List.mem_flatMap.1 hu
      have := char_bounds c
      unfold utf16 at hc
      split at hc <;> simp only [List.mem_cons, List.not_mem_nil, or_false] at hc <;> omega
    refine ⟨s.flatMap utf16, hu, rfl, ?_⟩
    intro t
    rw [← fromUtf16_iff hu t, fromUtf16_flatMap]

/-- Different strings have different bytes. -/
theorem c58_strings_injective {s t : Str} (h : mutf8 s = mutf8 t) : s = t := by
  have h1 := (c58_strings (mutf8 s) s).2 rfl
  rw [(c58_strings (mutf8 s) t).2 h] at h1
  simp only [Option.some.injEq] at h1
  exact h1.symm

theorem seqN_mem {α : Type} {G : α → Nat → Bytes → Prop} {l : List α} {n : Nat} {w : Bytes} (h : SeqN G l n w) {a : α} (ha : a ∈ l) : ∃ n w, G a n w := by
  induction h with
  | nil => simp at ha
  | cons h1 _ ih =>
    rcases List.mem_cons.1 ha with rfl | ha
    · exact ⟨_, _, h1⟩
    · exact ih ha

/-- Every method has a valid descriptor and as many parameters as it says; every field has a valid descriptor. -/
theorem c58_parameters {L : Limits} {b : Bytes} {c : Class} (h : parseClass L b = some c) :
    (∀ m ∈ c.methods, ∃ d, IsMethodDescriptor m.descriptor d ∧ m.parameters.length = d.parameters.length) ∧ ∀ f ∈ c.fields, IsFieldDescriptor f.descriptor := by
  obtain ⟨_, cp, _, _, _, _, _, _, _, _, _, _, _, _, _, _, _, _, _, _, _, _, ⟨_, _, _, _, hf⟩, ⟨_, _, _, _, hm⟩, _⟩ := (c58_exact L b c).1 h
  constructor
  · intro m hmem
    obtain ⟨n, w, _, _, _, _, _, _, _, _, _, _, _, _, _, _, _, _, _, _, _, _, _, h1⟩ := seqN_mem hm hmem
    obtain ⟨d, hd, h2⟩ := h1
    exact ⟨d, hd, h2.2.1⟩
  · intro f hmem
    obtain ⟨n, w, _, _, _, _, _, _, _, _, _, _, _, _, _, _, _, _, _, _, _, _, _, h1⟩ := seqN_mem hf hmem
    exact h1.1

/-- The parameters of a method without `MethodParameters` are named after the variables in their slots, else by their positions. -/
theorem c58_parameter_names (flags : Nat) (m : MethodDescriptor) (locals : List Local) (hm : IsMethod m) :
    parameters flags m [] locals = some ((List.range m.parameters.length).map fun i => { name := (nameAt locals (slotOf flags m.parameters i)).getD (argName i), flags := 0 }) := by
  rw [parameters_iff _ _ _ _ _ hm]
  refine ⟨by simp, by simp, ?_⟩
  intro i hi
  simp [hi]

/-- What was read keeps to the limits. -/
theorem c58_within_limits {L : Limits} {b : Bytes} {c : Class} (h : parseClass L b = some c) :
    b.length ≤ L.classBytes ∧ c.interfaces.length ≤ L.members ∧ c.fields.length ≤ L.members ∧ c.methods.length ≤ L.members ∧
    c.minor < 65536 ∧ c.major < 65536 ∧ c.flags < 65536 := by
  obtain ⟨h0, cp, _, _, _, _, _, _, _, _, _, _, _, _, _, h1, h2, h3, _, _, _, hi, hf, hm, _⟩ := (c58_exact L b c).1 h
  exact ⟨h0, hi.2.1, hf.2.1, hm.2.1, h1, h2, h3⟩

/-- The bound on the nesting in the model is no restriction: a value that is read with some bound is read with every bound from the number of its bytes on. -/
theorem c58_fuel (L : Limits) (cp : Pool) {f depth : Nat} {b r : Bytes} (h : value L cp f depth b = some ((), r)) (f' : Nat) (hf : b.length ≤ f') :
    value L cp f' depth b = some ((), r) := by
  obtain ⟨w, rfl, h1⟩ := (Parses.value L cp f depth b () r).1 h
  rw [List.length_append] at hf
  exact (Parses.value L cp f' depth _ () r).2 ⟨w, rfl, h1.levels f _ (by omega)⟩

/-- What kind of class it is: by the flags `ACC_MODULE`, `ACC_ANNOTATION`, `ACC_ENUM` and `ACC_INTERFACE`, and by its components. -/
theorem c58_kind (c : Class) :
    (c.kind = .module ↔ c.flags &&& 0x8000 ≠ 0) ∧
    (c.kind = .annotation ↔ c.flags &&& 0x8000 = 0 ∧ c.flags &&& 0x2000 ≠ 0) ∧
    (c.kind = .enum ↔ c.flags &&& 0x8000 = 0 ∧ c.flags &&& 0x2000 = 0 ∧ c.flags &&& 0x4000 ≠ 0) ∧
    (c.kind = .record ↔ c.flags &&& 0x8000 = 0 ∧ c.flags &&& 0x2000 = 0 ∧ c.flags &&& 0x4000 = 0 ∧ c.components ≠ []) ∧
    (c.kind = .interface ↔ c.flags &&& 0x8000 = 0 ∧ c.flags &&& 0x2000 = 0 ∧ c.flags &&& 0x4000 = 0 ∧ c.components = [] ∧ c.flags &&& 0x200 ≠ 0) := by
  have key : ∀ n i : Nat, n &&& 2 ^ i = 0 ↔ n.testBit i = false := by
    intro n i
    constructor
    · intro h
      have := congrArg (fun x => x.testBit i) h
      simpa [Nat.testBit_two_pow] using this
    · intro h
      apply Nat.eq_of_testBit_eq
      intro j
      by_cases e : i = j <;> simp_all [Nat.testBit_two_pow]
  have k15 : c.flags &&& 0x8000 = 0 ↔ _ := key c.flags 15
  have k14 : c.flags &&& 0x4000 = 0 ↔ _ := key c.flags 14
  have k13 : c.flags &&& 0x2000 = 0 ↔ _ := key c.flags 13
  have k9 : c.flags &&& 0x200 = 0 ↔ _ := key c.flags 9
  unfold Class.kind
  simp only [ne_eq, k15, k14, k13, k9]
  cases c.flags.testBit 15 <;> cases c.flags.testBit 14 <;> cases c.flags.testBit 13 <;> cases c.flags.testBit 9 <;> cases c.components <;> simp

/-! ### What does not hold -/

/-- Arrays inside arrays. -/
def arrays : Nat → Bytes
  | 0 => be1 0x5b ++ be2 0
  | n + 1 => be1 0x5b ++ (be2 1 ++ arrays n)

theorem arrays_length (n : Nat) : (arrays n).length = 3 * n + 3 := by
  induction n with
  | zero => rfl
  | succ n ih =>
    rw [arrays, List.length_append, List.length_append, ih, show (be1 0x5b).length = 1 from rfl, show (be2 1).length = 2 from rfl]
    omega

theorem arrays_value (L : Limits) (cp : Pool) (hL : 1 ≤ L.annotations) (n : Nat) : ∀ depth, IsValue L cp (n + 1) depth (arrays n) := by
  induction n with
  | zero =>
    intro depth
    rw [IsValue]
    exact .inr (.inr (.inr ⟨[], be2 0, rfl, by decide, Nat.zero_le _, [], rfl, .nil⟩))
  | succ n ih =>
    intro depth
    rw [IsValue]
    refine .inr (.inr (.inr ⟨[()], be2 1 ++ arrays n, rfl, by decide, hL, arrays n, rfl, ?_⟩))
    have := Seq.cons (G := fun (_ : Unit) v => IsValue L cp (n + 1) (depth + 1) v) (a := ()) (ih (depth + 1)) .nil
    rwa [List.append_nil] at this

theorem arrays_not_value (L : Limits) (cp : Pool) (n : Nat) : ∀ depth, ¬ IsValue L cp n depth (arrays n) := by
  induction n with
  | zero => intro depth h; exact h
  | succ n ih =>
    intro depth h
    rw [IsValue, arrays] at h
    rcases h with ⟨tag, x, h1, h2, _⟩ | ⟨x, h2, _⟩ | ⟨d, x, h2, _⟩ | ⟨l, x, h2, h3⟩
    · simp only [be1, List.cons_append, List.nil_append, List.cons.injEq] at h2
      have e := congrArg UInt8.toNat h2.1
      simp only [toNat_ofNat_mod] at e
      have ec : constantTags = [0x42, 0x43, 0x44, 0x46, 0x49, 0x4a, 0x53, 0x5a, 0x73, 0x63] := by decide
      rw [ec] at h1
      simp only [List.mem_cons, List.not_mem_nil, or_false] at h1
      omega
    · simp only [be1, List.cons_append, List.nil_append, List.cons.injEq] at h2
      exact absurd h2.1 (by decide)
    · simp only [be1, List.cons_append, List.nil_append, List.cons.injEq] at h2
      exact absurd h2.1 (by decide)
    · simp only [be1, List.cons_append, List.nil_append, List.cons.injEq] at h2
      obtain ⟨_, rfl⟩ := h2
      obtain ⟨h4, _, w', h5, h6⟩ := h3
      simp only [be2, List.cons_append, List.nil_append, List.cons.injEq] at h5
      obtain ⟨e1, e2, rfl⟩ := h5
      have e1 := congrArg UInt8.toNat e1
      have e2 := congrArg UInt8.toNat e2
      simp only [toNat_ofNat_mod] at e1 e2
      match l, h6 with
      | [], _ => simp at e2
      | [_], h6 =>
        generalize ha : arrays n = y at h6
        cases h6 with
        | cons h7 h8 =>
          cases h8
          rw [List.append_nil] at ha
          exact ih (depth + 1) (ha ▸ h7)
      | _ :: _ :: l, _ => simp only [List.length_cons] at h4 e1 e2; omega

/-- Whatever the limit on the depth of annotations, values in arrays are nested as deep as one likes: `3 * n + 3` bytes are read with `n + 1` nested calls, and not with
`n`.  Only nested annotations count, and an attribute may have 8 MiB. -/
theorem c58_array_nesting_fails (L : Limits) (cp : Pool) (hL : 1 ≤ L.annotations) (n : Nat) :
    ∃ w : Bytes, w.length = 3 * n + 3 ∧ ∀ depth, value L cp (n + 1) depth w = some ((), []) ∧ value L cp n depth w = none := by
  refine ⟨arrays n, arrays_length n, fun depth => ⟨?_, ?_⟩⟩
  · exact (Parses.value L cp (n + 1) depth _ () []).2 ⟨arrays n, by simp, arrays_value L cp hL n depth⟩
  · cases hv : value L cp n depth (arrays n) with
    | none => rfl
    | some x =>
      obtain ⟨⟨⟩, r⟩ := x
      exfalso
      have h1 := (Parses.value L cp (n + 1) depth (arrays n) () []).2 ⟨arrays n, by simp, arrays_value L cp hL n depth⟩
      have h2 := (Parses.value L cp n depth _ () r).1 hv
      obtain ⟨w, e, h3⟩ := h2
      have h4 := (Parses.value L cp (arrays n).length depth _ () r).2 ⟨w, e, h3.levels n _ (by rw [e, List.length_append]; omega)⟩
      have h5 := c58_fuel L cp h1 (arrays n).length (Nat.le_refl _)
      rw [h5] at h4
      cases h4
      rw [List.append_nil] at e
      subst e
      exact arrays_not_value L cp n depth h3

/-- Such values are part of attributes that are read. -/
theorem c58_array_nesting_in_attributes_fails (L : Limits) (cp : Pool) (hL : 1 ≤ L.annotations) {d : Str} {i : Nat} (hi : i < 65536) (hd : TextAt cp i d)
    (hf : IsFieldDescriptor d) (n : Nat) :
    annotations L cp (be2 1 ++ (be2 i ++ (be2 1 ++ (be2 i ++ arrays n)))) = some [d] := by
  rw [annotations_iff]
  refine ⟨n + 1, by simp, hL, _, rfl, ?_⟩
  have key := Seq.cons (G := fun d v => IsAnnotation L cp (IsValue L cp (n + 1)) 0 d v) (a := d) (l := []) (w := be2 i ++ (be2 1 ++ (be2 i ++ arrays n))) (w' := [])
    ⟨Nat.zero_le _, hf, be2 i, _, rfl, ⟨i, hi, rfl, hd⟩, [d], by simp, hL, _, rfl, ?_⟩ .nil
  · rwa [List.append_nil] at key
  · have k2 := Seq.cons (G := fun (name : Str) v => ∃ v1 v2, v = v1 ++ v2 ∧ Ref (TextAt cp) name v1 ∧ IsValue L cp (n + 1) 0 v2) (a := d) (l := [])
      (w := be2 i ++ arrays n) (w' := []) ⟨be2 i, arrays n, rfl, ⟨i, hi, rfl, hd⟩, arrays_value L cp hL n 0⟩ .nil
    rwa [List.append_nil] at k2

/-- Code with two tables of line numbers is rejected, although there may be several (§4.7.12); likewise for variables (§4.7.13). -/
theorem c58_two_tables_fails (L : Limits) (cp : Pool) (as : List (Str × Bytes))
    (h : 2 ≤ (contents "LineNumberTable" as).length ∨ 2 ≤ (contents "LocalVariableTable" as).length) :
    run (codeStep L cp) { lines := none, locals := none } as = none := by
  cases hr : run (codeStep L cp) { lines := none, locals := none } as with
  | none => rfl
  | some s =>
    obtain ⟨h1, h2⟩ := (code_says L cp as s).1 hr
    exfalso
    rcases h with h | h
    · rcases h1 with ⟨e, _⟩ | ⟨c, _, e, _⟩ <;> rw [e] at h <;> simp at h
    · rcases h2 with ⟨e, _⟩ | ⟨c, _, e, _⟩ <;> rw [e] at h <;> simp at h

/-! ### Examples -/

/-- A string in the pool. -/
def text (s : String) : Bytes := be1 1 ++ be2 (mutf8 s.toList).length ++ mutf8 s.toList

/-- An attribute. -/
def attrBytes (name : Nat) (content : Bytes) : Bytes := be2 name ++ be4 content.length ++ content

/-- The pool of the examples. -/
def samplePool : Bytes :=
  be2 19 ++ text "A" ++ (be1 7 ++ be2 1) ++ text "Obj" ++ (be1 7 ++ be2 3) ++ text "f" ++ text "(JI)V" ++ text "Code" ++ text "LineNumberTable" ++
  text "LocalVariableTable" ++ text "n" ++ text "I" ++ (be1 5 ++ be4 0 ++ be4 7) ++ text "Record" ++ text "SourceFile" ++ text "A😀.java" ++
  text "RuntimeVisibleAnnotations" ++ text "LX;"

def sampleClass (flags : Nat) (fields methods attributes : Bytes) : Bytes :=
  be4 0xcafebabe ++ be2 0 ++ be2 61 ++ samplePool ++ be2 flags ++ be2 2 ++ be2 4 ++ be2 0 ++ fields ++ methods ++ attributes

def lines : Bytes := attrBytes 8 (be2 2 ++ (be2 0 ++ be2 12) ++ (be2 3 ++ be2 10))
def locals : Bytes := attrBytes 9 (be2 1 ++ (be2 0 ++ be2 5 ++ be2 10 ++ be2 11 ++ be2 2))

/-- `static void f(long, int n)` with code. -/
def sampleMethod (count : Nat) (attributes : Bytes) : Bytes :=
  be2 1 ++ (be2 8 ++ be2 5 ++ be2 6 ++ be2 1 ++ attrBytes 7 (be2 1 ++ be2 3 ++ be4 1 ++ [0xb1] ++ be2 0 ++ be2 count ++ attributes))

set_option maxRecDepth 100000 in
example : parseClass Limits.default (sampleClass 1 (be2 0) (sampleMethod 2 (lines ++ locals)) (be2 2 ++ attrBytes 15 (be2 16) ++
      attrBytes 17 (be2 1 ++ be2 18 ++ be2 1 ++ be2 10 ++ arrays 40))) =
    some { minor := 0, major := 61, flags := 1, name := "A".toList, super := some "Obj".toList, interfaces := [], fields := [], methods := [{ flags := 8, name := "f".toList, descriptor := "(JI)V".toList, signature := none, exceptions := [], parameters := [{ name := "arg0".toList, flags := 0 }, { name := "n".toList, flags := 0 }], annotations := [], firstLine := some 10 }], sourceFile := some "A😀.java".toList, signature := none, annotations := ["LX;".toList], inner := [], components := [], moduleName := none } := by
  decide +kernel

/-- A second table of line numbers makes the class unreadable. -/
example : parseClass Limits.default (sampleClass 1 (be2 0) (sampleMethod 2 (lines ++ lines)) (be2 0)) = none := by decide +kernel

/-- A record without components (`record A()`) is taken for a class. -/
theorem c58_empty_record_fails :
    (parseClass Limits.default (sampleClass 0x11 (be2 0) (be2 0) (be2 1 ++ attrBytes 14 (be2 0)))).map Class.kind = some .cls := by decide +kernel

/-- A record with a component is one. -/
example : (parseClass Limits.default (sampleClass 0x11 (be2 0) (be2 0) (be2 1 ++ attrBytes 14 (be2 1 ++ be2 10 ++ be2 11 ++ be2 0)))).map Class.kind = some .record := by
  decide +kernel

/-- Bytes that are missing or left over. -/
example : parseClass Limits.default (sampleClass 1 (be2 0) (be2 0) (be2 0 ++ [0])) = none ∧ parseClass Limits.default (sampleClass 1 (be2 0) (be2 0) [0]) = none := by
  decide +kernel

/-- Overlong forms and plain zeros are no strings; unpaired surrogates are kept as a constant that cannot be used. -/
example : decode [0xc0, 0x80] = some (some ['\x00']) ∧ decode [0x00] = none ∧ decode [0xc1, 0x81] = none ∧ decode [0xe0, 0x80, 0x80] = none ∧
    decode [0xf0, 0x9f, 0x98, 0x80] = none ∧ decode [0xed, 0xa0, 0xbd, 0xed, 0xb8, 0x80] = some (some ['😀']) ∧ decode [0xed, 0xa0, 0xbd] = some none := by
  decide +kernel

end Verif.ClassFile
