import Verif.Model.Jvm
import Verif.Lemmas.Utf8
/-! Property C37: the descriptor parsers accept exactly the printed forms. -/
namespace Verif.Jvm

/-! ### Specification: the grammar, as a printer and a set of types -/

/-- The printed form of a type (JVMS §4.3.2/3). -/
def print : JvmType → List UInt8
  | .byte => [0x42]
  | .char => [0x43]
  | .double => [0x44]
  | .float => [0x46]
  | .int => [0x49]
  | .long => [0x4A]
  | .short => [0x53]
  | .boolean => [0x5A]
  | .void => [0x56]
  | .object name => 0x4C :: (name ++ [0x3B])
  | .array element => 0x5B :: print element

/-- Types allowed for fields, parameters and array elements: no `void` anywhere, class names non-empty and without `;`. -/
def IsFieldType : JvmType → Prop
  | .void => False
  | .object name => name ≠ [] ∧ 0x3B ∉ name
  | .array element => IsFieldType element
  | _ => True

/-- Types allowed as return type. -/
def IsReturnType (t : JvmType) : Prop := t = .void ∨ IsFieldType t

def printMethod (m : MethodDescriptor) : List UInt8 :=
  0x28 :: (m.parameters.flatMap print ++ 0x29 :: print m.returns)

def IsMethod (m : MethodDescriptor) : Prop := (∀ p ∈ m.parameters, IsFieldType p) ∧ IsReturnType m.returns

/-! ### Proofs -/

theorem primitive_print {b : UInt8} {t : JvmType} (h : primitive b = some t) : print t = [b] ∧ IsFieldType t ∧ b.toNat < 128 := by
  unfold primitive at h
  split at h <;> [skip; split at h <;> [skip; split at h <;> [skip; split at h <;> [skip; split at h <;> [skip;
    split at h <;> [skip; split at h <;> [skip; split at h]]]]]]] <;> cases h <;> subst_vars <;>
    exact ⟨rfl, trivial, by decide⟩

theorem dropWhile_semi {rest : List UInt8} {semi : UInt8} {tail : List UInt8}
    (h : rest.dropWhile (· ≠ 0x3B) = semi :: tail) :
    semi = 0x3B ∧ rest = rest.takeWhile (· ≠ 0x3B) ++ 0x3B :: tail ∧ 0x3B ∉ rest.takeWhile (· ≠ 0x3B) := by
  have h1 : semi = 0x3B := by
    have := List.head?_dropWhile_not (fun b : UInt8 => decide (b ≠ 0x3B)) rest
    rw [h] at this
    simpa using this
  subst h1
  refine ⟨rfl, ?_, ?_⟩
  · conv_lhs => rw [← List.takeWhile_append_dropWhile (p := fun b : UInt8 => decide (b ≠ 0x3B)) (l := rest), h]
  · intro hm
    have := List.all_takeWhile (p := fun b : UInt8 => decide (b ≠ 0x3B)) (l := rest)
    rw [List.all_eq_true] at this
    have := this _ hm
    simp at this

theorem parseType_sound {v : Bool} {l tail : List UInt8} {t : JvmType} (h : parseType v l = .ok (t, tail)) :
    ((v = true ∧ t = .void) ∨ IsFieldType t) ∧ l = print t ++ tail := by
  induction l generalizing v t tail with
  | nil => simp [parseType] at h
  | cons b rest ih =>
    rw [parseType] at h
    split at h
    · rename_i heq
      cases h
      obtain ⟨h1, h2, -⟩ := primitive_print heq
      exact ⟨Or.inr h2, by simp [h1]⟩
    · split at h
      · rename_i hb
        split at h <;> cases h
        rename_i hv
        subst hb
        exact ⟨Or.inl ⟨hv, rfl⟩, rfl⟩
      · split at h
        · rename_i hb
          subst hb
          split at h
          · cases h
          · rename_i semi tail' heq
            obtain ⟨rfl, hrest, hnot⟩ := dropWhile_semi heq
            split at h
            · cases h
            · rename_i hne
              split at h <;> cases h
              refine ⟨Or.inr ⟨hne, hnot⟩, ?_⟩
              conv_lhs => rw [hrest]
              simp [print]
        · split at h
          · rename_i hb
            subst hb
            split at h
            · rename_i heq
              cases h
              obtain ⟨h1, h2⟩ := ih heq
              rcases h1 with ⟨h1, -⟩ | h1
              · cases h1
              · exact ⟨Or.inr h1, by simp [print, h2]⟩
            · cases h
            · cases h
          · cases h

theorem valid_tail {b : UInt8} {l : List UInt8} (h : ValidUtf8 (b :: l)) (hb : b.toNat < 128) : ValidUtf8 l :=
  (validUtf8_split (p := [b]) h (boundary_after_ascii (p := []) h hb)).2

/-- On valid UTF-8 the parser neither panics nor leaves an invalid rest. -/
theorem parseType_valid {v : Bool} {l : List UInt8} (hl : ValidUtf8 l) :
    parseType v l ≠ .panic ∧ ∀ t tail, parseType v l = .ok (t, tail) → ValidUtf8 tail := by
  induction l generalizing v with
  | nil => exact ⟨by simp [parseType], by simp [parseType]⟩
  | cons b rest ih =>
    have hrest : b.toNat < 128 → ValidUtf8 rest := valid_tail hl
    rw [parseType]
    split
    · rename_i heq
      refine ⟨by simp, ?_⟩
      rintro t tail ⟨⟩
      exact hrest (primitive_print heq).2.2
    · split
      · rename_i hb
        subst hb
        split
        · refine ⟨by simp, ?_⟩
          rintro t tail ⟨⟩
          exact hrest (by decide)
        · exact ⟨by simp, by simp⟩
      · split
        · rename_i hb
          subst hb
          have hv := hrest (by decide)
          split
          · exact ⟨by simp, by simp⟩
          · rename_i semi tail' heq
            obtain ⟨rfl, hr, hnot⟩ := dropWhile_semi heq
            split
            · exact ⟨by simp, by simp⟩
            · have h1 : boundaryBefore rest = true := by
                obtain ⟨t, rfl⟩ := hv
                exact boundaryBefore_utf8 t
              have h2 : boundaryBefore ((0x3B : UInt8) :: tail') = true := boundary_at_ascii (by decide)
              rw [if_pos (by simp [h1, h2])]
              refine ⟨by simp, ?_⟩
              rintro t tail ⟨⟩
              rw [hr] at hv
              exact valid_tail (validUtf8_split hv h2).2 (by decide)
        · split
          · rename_i hb
            subst hb
            have hv := hrest (by decide)
            obtain ⟨h1, h2⟩ := ih (v := false) hv
            split
            · rename_i heq
              refine ⟨by simp, ?_⟩
              rintro t tail ⟨⟩
              exact h2 _ _ heq
            · exact ⟨by simp, by simp⟩
            · rename_i heq
              exact absurd heq h1
          · exact ⟨by simp, by simp⟩

theorem takeWhile_semi {name tail : List UInt8} (h : 0x3B ∉ name) :
    (name ++ 0x3B :: tail).takeWhile (· ≠ 0x3B) = name ∧ (name ++ 0x3B :: tail).dropWhile (· ≠ 0x3B) = 0x3B :: tail := by
  induction name with
  | nil => simp
  | cons b name ih =>
    simp only [List.mem_cons, not_or] at h
    obtain ⟨h1, h2⟩ := ih h.2
    have : b ≠ 0x3B := fun hc => h.1 hc.symm
    simp only [List.cons_append, List.takeWhile_cons, List.dropWhile_cons, decide_eq_true_eq]
    rw [if_pos this, if_pos this]
    exact ⟨by rw [h1], h2⟩

theorem parseType_complete {v : Bool} {t : JvmType} {tail : List UInt8} (ht : (v = true ∧ t = .void) ∨ IsFieldType t)
    (hv : ValidUtf8 (print t ++ tail)) : parseType v (print t ++ tail) = .ok (t, tail) := by
  induction t generalizing v with
  | object name =>
    have ht : name ≠ [] ∧ 0x3B ∉ name := by
      rcases ht with ⟨-, h⟩ | h
      · cases h
      · exact h
    obtain ⟨h1, h2⟩ := takeWhile_semi (tail := tail) ht.2
    have hnp := (parseType_valid (v := v) hv).1
    have he : print (.object name) ++ tail = 0x4C :: (name ++ 0x3B :: tail) := by simp [print]
    rw [he] at hnp ⊢
    rw [parseType] at hnp ⊢
    have hp : primitive 0x4C = none := by decide
    rw [hp] at hnp ⊢
    simp only [h1, h2, ht.1, if_false] at hnp ⊢
    rw [if_neg (by decide), if_pos trivial] at hnp ⊢
    split
    · rfl
    · rename_i hb
      rw [if_neg hb] at hnp
      exact absurd rfl hnp
  | array e ih =>
    have ht : IsFieldType e := by
      rcases ht with ⟨-, h⟩ | h
      · cases h
      · exact h
    have hv' : ValidUtf8 (print e ++ tail) := valid_tail (b := 0x5B) hv (by decide)
    have := ih (v := false) (Or.inr ht) hv'
    simp only [print, List.cons_append]
    rw [parseType]
    have hp : primitive 0x5B = none := by decide
    rw [hp]
    simp [this]
  | void =>
    rcases ht with ⟨rfl, -⟩ | h
    · rfl
    · exact h.elim
  | _ => rfl

theorem parseParams_sound {l tail : List UInt8} {ts : List JvmType} (h : parseParams l = .ok (ts, tail)) :
    (∀ t ∈ ts, IsFieldType t) ∧ l = ts.flatMap print ++ 0x29 :: tail := by
  induction hn : l.length using Nat.strongRecOn generalizing l ts tail with
  | ind n ih =>
    cases l with
    | nil => simp [parseParams] at h
    | cons b rest =>
      rw [parseParams] at h
      split at h
      · rename_i hb
        subst hb
        cases h
        simp
      · split at h
        · rename_i t tail' heq
          obtain ⟨h1, h2⟩ := parseType_sound heq
          have hlt := parseType_shorter heq
          split at h
          · rename_i ts' tail'' heq'
            cases h
            obtain ⟨h3, h4⟩ := ih tail'.length (by omega) heq' rfl
            rcases h1 with ⟨h1, -⟩ | h1
            · cases h1
            · refine ⟨by simpa using ⟨h1, h3⟩, ?_⟩
              rw [h2, h4]
              simp
          · cases h
          · cases h
        · cases h
        · cases h

theorem parseParams_valid {l : List UInt8} (hl : ValidUtf8 l) :
    parseParams l ≠ .panic ∧ ∀ ts tail, parseParams l = .ok (ts, tail) → ValidUtf8 tail := by
  induction hn : l.length using Nat.strongRecOn generalizing l with
  | ind n ih =>
    cases l with
    | nil => simp [parseParams]
    | cons b rest =>
      rw [parseParams]
      split
      · rename_i hb
        subst hb
        refine ⟨by simp, ?_⟩
        rintro ts tail ⟨⟩
        exact valid_tail hl (by decide)
      · obtain ⟨h1, h2⟩ := parseType_valid (v := false) hl
        split
        · rename_i t tail' heq
          have hlt := parseType_shorter heq
          obtain ⟨h3, h4⟩ := ih tail'.length (by omega) (h2 _ _ heq) rfl
          split
          · rename_i heq'
            refine ⟨by simp, ?_⟩
            rintro ts tail ⟨⟩
            exact h4 _ _ heq'
          · simp
          · rename_i heq'; exact absurd heq' h3
        · simp
        · rename_i heq; exact absurd heq h1

theorem print_head {t : JvmType} (h : IsFieldType t) : ∃ b r, print t = b :: r ∧ b ≠ 0x29 := by
  cases t <;> first | exact h.elim | exact ⟨_, _, rfl, by decide⟩

theorem parseParams_complete {ts : List JvmType} {tail : List UInt8} (h : ∀ t ∈ ts, IsFieldType t)
    (hv : ValidUtf8 (ts.flatMap print ++ 0x29 :: tail)) : parseParams (ts.flatMap print ++ 0x29 :: tail) = .ok (ts, tail) := by
  induction ts with
  | nil =>
    simp only [List.flatMap_nil, List.nil_append]
    rw [parseParams]
    simp
  | cons t ts ih =>
    have he : (t :: ts).flatMap print ++ 0x29 :: tail = print t ++ (ts.flatMap print ++ 0x29 :: tail) := by simp
    rw [he] at hv ⊢
    have hf := h t (by simp)
    have hp := parseType_complete (v := false) (Or.inr hf) hv
    have hv' := (parseType_valid (v := false) hv).2 _ _ hp
    have ih' := ih (fun x hx => h x (List.mem_cons_of_mem _ hx)) hv'
    obtain ⟨b, r, hbr, hb⟩ := print_head hf
    rw [hbr] at hp ⊢
    simp only [List.cons_append] at hp ⊢
    rw [parseParams, if_neg hb]
    split
    · rename_i heq
      rw [hp] at heq
      cases heq
      rw [ih']
    · rename_i heq; rw [hp] at heq; cases heq
    · rename_i heq; rw [hp] at heq; cases heq

/-! ### C37 -/

/-- A field descriptor is accepted, with result `t`, exactly when it is the printed form of the field type `t`. -/
theorem c37_field {d : List UInt8} (hd : ValidUtf8 d) (t : JvmType) : parseField d = .ok t ↔ IsFieldType t ∧ d = print t := by
  constructor
  · intro h
    unfold parseField at h
    split at h <;> cases h
    rename_i heq
    obtain ⟨h1, h2⟩ := parseType_sound heq
    rcases h1 with ⟨h1, -⟩ | h1
    · cases h1
    · exact ⟨h1, by simpa using h2⟩
  · rintro ⟨h1, rfl⟩
    have := parseType_complete (v := false) (tail := []) (Or.inr h1) (by simpa using hd)
    rw [List.append_nil] at this
    simp [parseField, this]

/-- A method descriptor is accepted, with result `m`, exactly when it is the printed form of the signature `m`. -/
theorem c37_method {d : List UInt8} (hd : ValidUtf8 d) (m : MethodDescriptor) :
    parseMethod d = .ok m ↔ IsMethod m ∧ d = printMethod m := by
  constructor
  · intro h
    unfold parseMethod at h
    split at h
    · cases h
    · split at h
      · rename_i hb
        subst hb
        split at h
        · rename_i heq
          obtain ⟨h1, h2⟩ := parseParams_sound heq
          split at h <;> cases h
          rename_i heq'
          obtain ⟨h3, h4⟩ := parseType_sound heq'
          refine ⟨⟨h1, ?_⟩, by simp [printMethod, h2, h4]⟩
          rcases h3 with ⟨-, h3⟩ | h3
          · exact Or.inl h3
          · exact Or.inr h3
        · cases h
        · cases h
      · cases h
  · rintro ⟨⟨h1, h2⟩, rfl⟩
    have hv := valid_tail (b := 0x28) hd (by decide)
    have hp := parseParams_complete h1 hv
    have hv' := (parseParams_valid hv).2 _ _ hp
    have hr := parseType_complete (v := true) (t := m.returns) (tail := [])
      (by rcases h2 with h2 | h2
          · exact Or.inl ⟨rfl, h2⟩
          · exact Or.inr h2) (by simpa using hv')
    rw [List.append_nil] at hr
    simp [printMethod, parseMethod, hp, hr]

/-- Parsing a Rust string never panics: class names are always cut at character boundaries. -/
theorem c37_no_panic {d : List UInt8} (hd : ValidUtf8 d) : parseField d ≠ .panic ∧ parseMethod d ≠ .panic := by
  constructor
  · have := (parseType_valid (v := false) hd).1
    unfold parseField
    split <;> simp_all
  · unfold parseMethod
    split
    · simp
    · split
      · rename_i hb
        subst hb
        have hv := valid_tail hd (by decide)
        obtain ⟨h1, h2⟩ := parseParams_valid hv
        split
        · rename_i heq
          have := (parseType_valid (v := true) (h2 _ _ heq)).1
          split <;> simp_all
        · simp
        · rename_i heq; exact absurd heq h1
      · simp

/-- The class names returned are themselves valid strings. -/
theorem c37_names_valid {d : List UInt8} (hd : ValidUtf8 d) {name : List UInt8} (h : parseField d = .ok (.object name)) :
    ValidUtf8 name := by
  obtain ⟨-, rfl⟩ := (c37_field hd _).mp h
  have := valid_tail (b := 0x4C) hd (by decide)
  exact (validUtf8_split this (boundary_at_ascii (by decide))).1

/-- Different types have different printed forms, so the result of a parse is determined by the descriptor and vice versa. -/
theorem c37_print_injective {m m' : MethodDescriptor} (h : IsMethod m) (h' : IsMethod m') (hv : ValidUtf8 (printMethod m))
    (he : printMethod m = printMethod m') : m = m' := by
  have h1 := (c37_method hv m).mpr ⟨h, rfl⟩
  have h2 := (c37_method hv m').mpr ⟨h', he⟩
  rw [h1] at h2
  exact Res.ok.inj h2

/-- `(LFoo;I[J)V` -/
example : ValidUtf8 [0x28, 0x4C, 0x46, 0x6F, 0x6F, 0x3B, 0x49, 0x5B, 0x4A, 0x29, 0x56] :=
  ⟨['(', 'L', 'F', 'o', 'o', ';', 'I', '[', 'J', ')', 'V'], by decide⟩

example : IsMethod ⟨[.object [0x46, 0x6F, 0x6F], .int, .array .long], .void⟩ ∧
    printMethod ⟨[.object [0x46, 0x6F, 0x6F], .int, .array .long], .void⟩ =
      [0x28, 0x4C, 0x46, 0x6F, 0x6F, 0x3B, 0x49, 0x5B, 0x4A, 0x29, 0x56] := by
  refine ⟨⟨?_, Or.inl rfl⟩, by decide⟩
  simp [IsFieldType]

end Verif.Jvm
