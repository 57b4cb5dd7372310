import Mathlib.Data.List.Induction
import Verif.Lemmas.ClassFile

/-! Annotations, attributes and parameters: what the parsers decide. -/
namespace Verif.ClassFile

open Jvm

theorem bind_assoc_P {α β γ : Type} (p : P α) (f : α → P β) (g : β → P γ) : ((p >>= f) >>= g) = (p >>= fun a => f a >>= g) := by
  funext b
  simp only [bind_eq]
  cases p b <;> rfl

theorem Parses.tableThen {α β : Type} {p : P α} {q : List α → P β} {G : α → Bytes → Prop} {H : List α → β → Bytes → Prop} (m : Nat)
    (hp : Parses p G) (hq : ∀ l, Parses (q l) (H l)) :
    Parses (ClassFile.count m >>= fun n => ClassFile.times n p >>= q) (fun c w => ∃ l w1 w2, w = w1 ++ w2 ∧ Table m G l w1 ∧ H l c w2) := by
  rw [← bind_assoc_P (ClassFile.count m) (fun n => ClassFile.times n p) q]
  exact (hp.table m).bind hq

/-! ### Annotations -/

theorem Parses.annotation (L : Limits) (cp : Pool) {v : Nat → P Unit} {V : Nat → Bytes → Prop} (h : ∀ d, Parses (v d) (fun _ w => V d w)) (depth : Nat) :
    Parses (annotation L cp v depth) (IsAnnotation L cp V depth) := by
  refine ((Parses.must (depth ≤ L.depth)).bind fun _ => (Parses.utf8Ref cp).bind fun d => (Parses.must (isField d = true)).bind fun _ =>
    Parses.tableThen L.annotations ((Parses.utf8Ref cp).bind fun _ => h depth) fun _ => Parses.pure d).congr ?_
  intro d w
  constructor
  · rintro ⟨_, w1, w2, rfl, ⟨h1, rfl⟩, d', w3, w4, rfl, h2, _, w5, w6, rfl, ⟨h3, rfl⟩, l, w7, w8, rfl, h4, rfl, rfl⟩
    refine ⟨h1, (isField_iff d).1 h3, w3, w7, by simp, h2, ?_⟩
    obtain ⟨a1, a2, w', rfl, a3⟩ := h4
    have key : ∀ (l : List Unit) (w' : Bytes), Seq (fun _ w => ∃ a w1 w2, w = w1 ++ w2 ∧ Ref (TextAt cp) a w1 ∧ V depth w2) l w' →
        ∃ names : List Str, names.length = l.length ∧ Seq (fun name v => ∃ v1 v2, v = v1 ++ v2 ∧ Ref (TextAt cp) name v1 ∧ V depth v2) names w' := by
      intro l w' hs
      induction hs with
      | nil => exact ⟨[], rfl, .nil⟩
      | cons b1 _ ih =>
        obtain ⟨names, e1, e2⟩ := ih
        obtain ⟨a, v1, v2, e3, e4, e5⟩ := b1
        exact ⟨a :: names, by simp [e1], .cons ⟨v1, v2, e3, e4, e5⟩ e2⟩
    obtain ⟨names, e1, e2⟩ := key l w' a3
    refine ⟨names, ?_⟩
    rw [← e1] at a1 a2 ⊢
    exact ⟨a1, a2, w', rfl, e2⟩
  · rintro ⟨h1, h2, w1, w2, rfl, h3, names, a1, a2, w', rfl, a3⟩
    have key : ∀ (names : List Str) (w' : Bytes), Seq (fun name v => ∃ v1 v2, v = v1 ++ v2 ∧ Ref (TextAt cp) name v1 ∧ V depth v2) names w' →
        Seq (fun (_ : Unit) w => ∃ a w1 w2, w = w1 ++ w2 ∧ Ref (TextAt cp) a w1 ∧ V depth w2) (names.map fun _ => ()) w' := by
      intro l w' hs
      induction hs with
      | nil => exact .nil
      | cons b1 _ ih =>
        obtain ⟨v1, v2, e3, e4, e5⟩ := b1
        exact .cons ⟨_, v1, v2, e3, e4, e5⟩ ih
    refine ⟨(), [], _, rfl, ⟨h1, rfl⟩, d, w1, _, rfl, h3, (), [], _, rfl, ⟨(isField_iff d).2 h2, rfl⟩, names.map fun _ => (), _, [], (List.append_nil _).symm, ?_, rfl, rfl⟩
    have e : names.length = (names.map fun _ => ()).length := by simp
    rw [e] at a1 a2 ⊢
    exact ⟨a1, a2, w', rfl, key names w' a3⟩

theorem be1_tag {tag : Nat} : be1 tag = [UInt8.ofNat tag] := rfl

theorem Parses.value (L : Limits) (cp : Pool) (f : Nat) : ∀ depth, Parses (value L cp f depth) (fun _ w => IsValue L cp f depth w) := by
  induction f with
  | zero =>
    intro depth b a r
    simp [ClassFile.value, ClassFile.lift, IsValue]
  | succ f ih =>
    intro depth
    have p0 : Parses (do let _ ← ClassFile.u2; Pure.pure ()) (fun _ w => Raw 2 w) := by
      refine (Parses.u2.bind fun _ => Parses.pure ()).congr ?_
      intro a w
      constructor
      · rintro ⟨i, w1, w2, rfl, ⟨_, rfl⟩, _, rfl⟩
        rfl
      · intro h
        obtain ⟨x, hx⟩ : ∃ x, ClassFile.u2 w = some (x, []) := by
          match w, h with
          | [x, y], _ => exact ⟨_, rfl⟩
        obtain ⟨w', h1, h2⟩ := (Parses.u2 w x []).1 hx
        rw [List.append_nil] at h1
        exact ⟨x, w, [], by simp, h1 ▸ h2, rfl, rfl⟩
    have p1 : Parses (do let _ ← ClassFile.u2; let _ ← ClassFile.u2; Pure.pure ()) (fun _ w => Raw 4 w) := by
      refine (Parses.u2.bind fun _ => p0).congr ?_
      intro a w
      constructor
      · rintro ⟨i, w1, w2, rfl, ⟨_, rfl⟩, h⟩
        unfold Raw at h ⊢
        rw [List.length_append, h]
        rfl
      · intro h
        match w, h with
        | [x, y, z, u], _ =>
          obtain ⟨n, hn⟩ : ∃ n, ClassFile.u2 [x, y] = some (n, []) := ⟨_, rfl⟩
          obtain ⟨w', h1, h2⟩ := (Parses.u2 [x, y] n []).1 hn
          rw [List.append_nil] at h1
          exact ⟨n, [x, y], [z, u], rfl, h1 ▸ h2, rfl⟩
    refine (Parses.u1.bind fun tag => Parses.ite (fun _ => p0) fun _ => Parses.ite (fun _ => p1) fun _ =>
      Parses.ite (fun _ => (Parses.annotation L cp ih (depth + 1)).bind fun _ => Parses.pure ()) fun _ =>
      Parses.ite (fun _ => Parses.tableThen L.annotations (ih (depth + 1)) fun _ => Parses.pure ()) fun _ => Parses.fail).congr ?_
    intro a w
    have ec : constantTags = [0x42, 0x43, 0x44, 0x46, 0x49, 0x4a, 0x53, 0x5a, 0x73, 0x63] := by decide
    rw [IsValue, ec]
    constructor
    · rintro ⟨tag, w1, w2, rfl, ⟨ht, rfl⟩, h⟩
      rcases h with ⟨h1, h2⟩ | ⟨_, h⟩
      · exact .inl ⟨tag, w2, h1, rfl, h2⟩
      rcases h with ⟨rfl, h2⟩ | ⟨_, h⟩
      · exact .inr (.inl ⟨w2, rfl, h2⟩)
      rcases h with ⟨rfl, d, w3, w4, rfl, h2, _, rfl⟩ | ⟨_, h⟩
      · exact .inr (.inr (.inl ⟨d, w3, by simp, h2⟩))
      rcases h with ⟨rfl, l, w3, w4, rfl, h2, _, rfl⟩ | ⟨_, h⟩
      · exact .inr (.inr (.inr ⟨l, w3, by simp, h2⟩))
      exact h.elim
    · rintro (⟨tag, x, h1, rfl, h2⟩ | ⟨x, rfl, h2⟩ | ⟨d, x, rfl, h2⟩ | ⟨l, x, rfl, h2⟩)
      · refine ⟨tag, _, x, rfl, ⟨?_, rfl⟩, .inl ⟨h1, h2⟩⟩
        simp only [List.mem_cons, List.not_mem_nil, or_false] at h1
        omega
      · exact ⟨0x65, _, x, rfl, ⟨by decide, rfl⟩, .inr ⟨by decide, .inl ⟨rfl, h2⟩⟩⟩
      · exact ⟨0x40, _, x, rfl, ⟨by decide, rfl⟩, .inr ⟨by decide, .inr ⟨by decide, .inl ⟨rfl, d, x, [], by simp, h2, rfl, rfl⟩⟩⟩⟩
      · exact ⟨0x5b, _, x, rfl, ⟨by decide, rfl⟩, .inr ⟨by decide, .inr ⟨by decide, .inr ⟨by decide, .inl ⟨rfl, l, x, [], by simp, h2, rfl, rfl⟩⟩⟩⟩⟩

theorem Seq.congr_le {α : Type} {G G' : α → Bytes → Prop} {l : List α} {w : Bytes} (h : Seq G l w)
    (e : ∀ a w', w'.length ≤ w.length → G a w' → G' a w') : Seq G' l w := by
  induction h with
  | nil => exact .nil
  | cons h1 _ ih =>
    rw [List.length_append] at e
    exact .cons (e _ _ (by omega) h1) (ih fun a w' ha => e a w' (by omega))

theorem Table.congr_le {α : Type} {G G' : α → Bytes → Prop} {m : Nat} {l : List α} {w : Bytes} (h : Table m G l w)
    (e : ∀ a w', w'.length ≤ w.length → G a w' → G' a w') : Table m G' l w := by
  obtain ⟨h1, h2, w', rfl, h4⟩ := h
  rw [List.length_append] at e
  exact ⟨h1, h2, w', rfl, h4.congr_le fun a w' h => e a w' (by omega)⟩

theorem IsAnnotation.congr_le {L : Limits} {cp : Pool} {V V' : Nat → Bytes → Prop} {depth : Nat} {d : Str} {w : Bytes}
    (h : IsAnnotation L cp V depth d w) (e : ∀ w', w'.length ≤ w.length → V depth w' → V' depth w') : IsAnnotation L cp V' depth d w := by
  obtain ⟨h1, h2, w1, w2, rfl, h3, names, h4⟩ := h
  rw [List.length_append] at e
  refine ⟨h1, h2, w1, w2, rfl, h3, names, h4.congr_le ?_⟩
  rintro a w' hl ⟨v1, v2, rfl, h5, h6⟩
  rw [List.length_append] at hl
  exact ⟨v1, v2, rfl, h5, e v2 (by omega) h6⟩

/-- Values with few levels have any number of further levels, and no value has more levels than bytes. -/
theorem IsValue.levels {L : Limits} {cp : Pool} (n : Nat) : ∀ {depth : Nat} {w : Bytes}, IsValue L cp n depth w → ∀ m, w.length ≤ m → IsValue L cp m depth w := by
  induction n with
  | zero => intro depth w h; exact h.elim
  | succ n ih =>
    intro depth w h m hm
    rw [IsValue] at h
    rcases h with ⟨tag, x, h1, rfl, h2⟩ | ⟨x, rfl, h2⟩ | ⟨d, x, rfl, h2⟩ | ⟨l, x, rfl, h2⟩
    all_goals
      rw [List.length_append, show (be1 _).length = 1 from rfl] at hm
      obtain ⟨m, rfl⟩ : ∃ k, m = k + 1 := ⟨m - 1, by omega⟩
      rw [IsValue]
    · exact .inl ⟨tag, x, h1, rfl, h2⟩
    · exact .inr (.inl ⟨x, rfl, h2⟩)
    · exact .inr (.inr (.inl ⟨d, x, rfl, h2.congr_le fun w' hl hv => ih hv m (by omega)⟩))
    · exact .inr (.inr (.inr ⟨l, x, rfl, h2.congr_le fun _ w' hl hv => ih hv m (by omega)⟩))

theorem annotations_iff (L : Limits) (cp : Pool) (b : Bytes) (ds : List Str) : annotations L cp b = some ds ↔ AreAnnotations L cp ds b := by
  unfold annotations AreAnnotations
  rw [whole_iff ((Parses.annotation L cp (Parses.value L cp b.length) 0).table L.annotations)]
  constructor
  · intro h
    exact ⟨_, h⟩
  · rintro ⟨n, h⟩
    exact h.congr_le fun d w' hl ha => ha.congr_le fun w'' hl' hv => hv.levels n _ (by omega)

/-! ### Attributes -/

theorem Parses.attr (L : Limits) (cp : Pool) : Parses (attr L cp) (IsAttr L cp) := by
  refine ((Parses.utf8Ref cp).bind fun name => Parses.u4.bind fun n => (Parses.must (n ≤ L.attributeBytes)).bind fun _ =>
    (Parses.take n).bind fun b => Parses.pure (name, b)).congr ?_
  rintro ⟨name, b⟩ w
  constructor
  · rintro ⟨name, w1, w2, rfl, h1, n, w3, w4, rfl, ⟨h2, rfl⟩, _, w5, w6, rfl, ⟨h3, rfl⟩, b, w7, w8, rfl, ⟨rfl, rfl⟩, e, rfl⟩
    cases e
    exact ⟨h2, h3, w1, by simp, h1⟩
  · rintro ⟨h1, h2, v, rfl, h3⟩
    exact ⟨name, v, _, by rw [List.append_assoc], h3, b.length, _, b, rfl, ⟨h1, rfl⟩, (), [], b, rfl, ⟨h2, rfl⟩, b, b, [], by simp, ⟨rfl, rfl⟩, rfl, rfl⟩

/-- A state after attributes. -/
def run {σ : Type} (step : σ → Str × Bytes → Option σ) : σ → List (Str × Bytes) → Option σ
  | s, [] => some s
  | s, a :: as => (step s a).bind fun s => run step s as

theorem Parses.attributes {σ : Type} (L : Limits) (cp : Pool) (step : σ → Str × Bytes → Option σ) (n : Nat) : ∀ s : σ,
    Parses (attributes L cp step n s) (fun s' w => ∃ as, as.length = n ∧ Seq (IsAttr L cp) as w ∧ run step s as = some s') := by
  induction n with
  | zero =>
    intro s
    refine (Parses.pure s).congr ?_
    intro s' w
    constructor
    · rintro ⟨rfl, rfl⟩
      exact ⟨[], rfl, .nil, rfl⟩
    · rintro ⟨as, h1, h2, h3⟩
      cases h2 with
      | nil => exact ⟨by cases h3; rfl, rfl⟩
      | cons _ _ => simp at h1
  | succ n ih =>
    intro s
    refine ((Parses.attr L cp).bind fun a => (Parses.lift (step s a)).bind fun s => ih s).congr ?_
    intro s' w
    constructor
    · rintro ⟨a, w1, w2, rfl, h1, s1, w3, w4, rfl, ⟨h2, rfl⟩, as, h3, h4, h5⟩
      refine ⟨a :: as, by simp [h3], .cons h1 h4, ?_⟩
      rw [run, h2]
      exact h5
    · rintro ⟨as, h1, h2, h3⟩
      cases h2 with
      | nil => simp at h1
      | @cons a as w w' h4 h5 =>
        rw [run] at h3
        obtain ⟨s1, h6, h7⟩ := Option.bind_eq_some_iff.1 h3
        exact ⟨a, w, w', rfl, h4, s1, [], w', rfl, ⟨h6, rfl⟩, as, by simpa using h1, h5, h7⟩

theorem run_snoc {σ : Type} (step : σ → Str × Bytes → Option σ) (s : σ) (as : List (Str × Bytes)) (a : Str × Bytes) :
    run step s (as ++ [a]) = (run step s as).bind fun s => step s a := by
  induction as generalizing s with
  | nil =>
    show ((step s a).bind fun s => some s) = step s a
    cases step s a <;> rfl
  | cons x as ih =>
    simp only [List.cons_append, run]
    cases step s x with
    | none => rfl
    | some s1 => exact ih s1

/-- What a state says about the attributes so far, from what a step does to it. -/
theorem run_iff {σ : Type} {step : σ → Str × Bytes → Option σ} {s0 : σ} {S : List (Str × Bytes) → σ → Prop}
    (h0 : ∀ s, S [] s ↔ s = s0) (h1 : ∀ as a s', S (as ++ [a]) s' ↔ ∃ s, S as s ∧ step s a = some s') (as : List (Str × Bytes)) (s : σ) :
    run step s0 as = some s ↔ S as s := by
  revert s
  induction as using List.reverseRecOn with
  | nil =>
    intro s
    rw [h0]
    exact ⟨fun h => by cases h; rfl, fun h => by rw [h]; rfl⟩
  | append_singleton as a ih =>
    intro s
    rw [run_snoc, h1, Option.bind_eq_some_iff]
    constructor
    · rintro ⟨t, h2, h3⟩
      exact ⟨t, (ih t).1 h2, h3⟩
    · rintro ⟨t, h2, h3⟩
      exact ⟨t, (ih t).2 h2, h3⟩

theorem contents_snoc (name : String) (as : List (Str × Bytes)) (a : Str × Bytes) :
    contents name (as ++ [a]) = contents name as ++ if a.1 = name.toList then [a.2] else [] := by
  unfold contents
  by_cases h : a.1 = name.toList <;> simp [List.filter_append, h]

theorem one_none {α : Type} {name : String} {G : α → Bytes → Prop} {as : List (Str × Bytes)} : One name G as none ↔ contents name as = [] := by
  unfold One
  constructor
  · rintro (⟨h, _⟩ | ⟨_, _, _, h, _⟩)
    · exact h
    · cases h
  · intro h
    exact .inl ⟨h, rfl⟩

theorem one_nil {α : Type} {name : String} {G : α → Bytes → Prop} {o : Option α} : One name G [] o ↔ o = none := by
  unfold One
  simp [contents]

theorem one_other {α : Type} {name : String} {G : α → Bytes → Prop} {as : List (Str × Bytes)} {a : Str × Bytes} {o : Option α}
    (h : a.1 ≠ name.toList) : One name G (as ++ [a]) o ↔ One name G as o := by
  unfold One
  rw [contents_snoc, if_neg h, List.append_nil]

theorem one_same {α : Type} {name : String} {G : α → Bytes → Prop} {as : List (Str × Bytes)} {a : Str × Bytes} {o : Option α}
    (h : a.1 = name.toList) : One name G (as ++ [a]) o ↔ One name G as none ∧ ∃ x, o = some x ∧ G x a.2 := by
  rw [one_none]
  unfold One
  rw [contents_snoc, if_pos h]
  constructor
  · rintro (⟨h1, _⟩ | ⟨c, x, h1, h2, h3⟩)
    · simp at h1
    · cases hc : contents name as with
      | nil =>
        rw [hc] at h1
        cases h1
        exact ⟨rfl, x, h2, h3⟩
      | cons y l =>
        rw [hc] at h1
        simp at h1
  · rintro ⟨h1, x, h2, h3⟩
    exact .inr ⟨a.2, x, by rw [h1]; rfl, h2, h3⟩

theorem annotations_other {L : Limits} {cp : Pool} {as : List (Str × Bytes)} {a : Str × Bytes} {ds : List Str} (h : isAnnotations a.1 = false) :
    AllAnnotations L cp (as ++ [a]) ds ↔ AllAnnotations L cp as ds := by
  unfold isAnnotations at h
  unfold AllAnnotations
  rw [List.filter_append]
  simp only [List.filter_cons, h, List.filter_nil, Bool.false_eq_true, if_false, List.append_nil]

theorem forall2_snoc {α β : Type} {R : α → β → Prop} {ls : List α} {cs : List β} {c : β} :
    List.Forall₂ R ls (cs ++ [c]) ↔ ∃ ls' l, ls = ls' ++ [l] ∧ List.Forall₂ R ls' cs ∧ R l c := by
  induction cs generalizing ls with
  | nil =>
    constructor
    · intro h
      cases h with
      | cons h1 h2 =>
        cases h2
        exact ⟨[], _, rfl, .nil, h1⟩
    · rintro ⟨ls', l, rfl, h1, h2⟩
      cases h1
      exact .cons h2 .nil
  | cons x cs ih =>
    constructor
    · intro h
      cases h with
      | cons h1 h2 =>
        obtain ⟨ls', l, rfl, h3, h4⟩ := ih.1 h2
        exact ⟨_ :: ls', l, rfl, .cons h1 h3, h4⟩
    · rintro ⟨ls', l, rfl, h1, h2⟩
      cases h1 with
      | cons h3 h4 => exact .cons h3 (ih.2 ⟨_, l, rfl, h4, h2⟩)

theorem annotations_same {L : Limits} {cp : Pool} {as : List (Str × Bytes)} {a : Str × Bytes} {ds : List Str} (h : isAnnotations a.1 = true) :
    AllAnnotations L cp (as ++ [a]) ds ↔ ∃ ds1 ds2, ds = ds1 ++ ds2 ∧ AllAnnotations L cp as ds1 ∧ AreAnnotations L cp ds2 a.2 := by
  unfold isAnnotations at h
  unfold AllAnnotations
  rw [List.filter_append]
  simp only [List.filter_cons, h, List.filter_nil, if_true, List.map_append, List.map_cons, List.map_nil]
  constructor
  · rintro ⟨ls, rfl, h1⟩
    obtain ⟨ls', l, rfl, h2, h3⟩ := forall2_snoc.1 h1
    exact ⟨ls'.flatten, l, by simp, ⟨ls', rfl, h2⟩, h3⟩
  · rintro ⟨_, l, rfl, ⟨ls', rfl, h2⟩, h3⟩
    exact ⟨ls' ++ [l], by simp, forall2_snoc.2 ⟨ls', l, rfl, h2, h3⟩⟩

theorem annotations_nil {L : Limits} {cp : Pool} {ds : List Str} : AllAnnotations L cp [] ds ↔ ds = [] := by
  unfold AllAnnotations
  constructor
  · rintro ⟨ls, rfl, h⟩
    cases h
    rfl
  · rintro rfl
    exact ⟨[], rfl, .nil⟩

theorem signature_iff (cp : Pool) (b : Bytes) (s : Str) : signature cp b = some s ↔ Ref (TextAt cp) s b := whole_iff (Parses.utf8Ref cp) b s

theorem exceptions_iff (L : Limits) (cp : Pool) (b : Bytes) (l : List Str) : exceptions L cp b = some l ↔ Table L.members (Ref (ClassAt cp)) l b :=
  whole_iff ((Parses.classRef cp).table L.members) b l

/-! ### Parameters -/

theorem minByStart_spec (l : List Local) : (minByStart l = none ↔ l = []) ∧
    ∀ y, minByStart l = some y → y ∈ l ∧ (∀ x ∈ l, y.start ≤ x.start) ∧ l.find? (fun x => decide (x.start ≤ y.start)) = some y := by
  induction l with
  | nil => exact ⟨by simp [minByStart], fun y h => by cases h⟩
  | cons x l ih =>
    obtain ⟨ih1, ih2⟩ := ih
    rw [minByStart]
    cases hm : minByStart l with
    | none =>
      have := ih1.1 hm
      subst this
      refine ⟨by simp, ?_⟩
      intro y hy
      cases hy
      simp
    | some z =>
      obtain ⟨h1, h2, h3⟩ := ih2 z hm
      simp only
      split
      · rename_i hle
        refine ⟨by simp, ?_⟩
        intro y hy
        cases hy
        refine ⟨by simp, ?_, by simp⟩
        intro a ha
        rcases List.mem_cons.1 ha with rfl | ha
        · omega
        · have := h2 a ha; omega
      · rename_i hle
        refine ⟨by simp, ?_⟩
        intro y hy
        cases hy
        refine ⟨List.mem_cons_of_mem _ h1, ?_, ?_⟩
        · intro a ha
          rcases List.mem_cons.1 ha with rfl | ha
          · omega
          · exact h2 a ha
        · rw [List.find?_cons_of_neg (by simpa using hle), h3]

theorem debugName_eq (locals : List Local) (slot : Nat) : debugName locals slot = nameAt locals slot := by
  unfold debugName nameAt
  have e : (fun x : Local => decide (x.slot = slot ∧ x.start = 0)) =
      fun x => decide ((fun x : Local => decide (x.slot = slot)) x = true ∧ (fun x : Local => decide (x.start = 0)) x = true) := by
    funext x
    simp
  rw [e, ← List.find?_filter]
  generalize locals.filter (fun x => decide (x.slot = slot)) = l
  obtain ⟨h1, h2⟩ := minByStart_spec l
  cases hm : minByStart l with
  | none =>
    rw [h1.1 hm]
    rfl
  | some y =>
    obtain ⟨h3, h4, h5⟩ := h2 y hm
    simp only
    split
    · rename_i h0
      have e2 : (fun x : Local => decide (x.start ≤ y.start)) = fun x => decide (x.start = 0) := by
        funext x
        rw [h0]
        simp
      rw [e2] at h5
      rw [h5]
      rfl
    · rename_i h0
      have : l.find? (fun x => decide (x.start = 0)) = none := by
        rw [List.find?_eq_none]
        intro x hx
        have := h4 x hx
        simp only [decide_eq_true_eq]
        omega
      rw [this]
      rfl

theorem width_eq {t : JvmType} (h : IsFieldType t) : width t = some (slots t) := by
  cases t <;> first | rfl | exact h.elim

theorem fill_eq (locals : List Local) (types : List JvmType) : ∀ (slot index : Nat) (given : List Param), (∀ t ∈ types, IsFieldType t) → given.length ≤ types.length →
    ∃ ps, fill locals slot index types given = some ps ∧ ps.length = types.length ∧ ∀ i, i < types.length →
      ps[i]? = if i < given.length then given[i]? else some { name := (nameAt locals (slot + ((types.take i).map slots).sum)).getD (argName (index + i)), flags := 0 } := by
  induction types with
  | nil =>
    intro slot index given _ hg
    refine ⟨given, rfl, ?_, ?_⟩
    · simpa using hg
    · intro i hi
      simp at hi
  | cons t ts ih =>
    intro slot index given ht hg
    obtain ⟨ps, h1, h2, h3⟩ := ih (slot + slots t) (index + 1) given.tail (fun x hx => ht x (List.mem_cons_of_mem _ hx)) (by
      rw [List.length_tail]; simp only [List.length_cons] at hg; omega)
    refine ⟨given.head?.getD { name := (debugName locals slot).getD (argName index), flags := 0 } :: ps, ?_, by simp [h2], ?_⟩
    · rw [fill, width_eq (ht t List.mem_cons_self)]
      simp only [Option.bind_eq_bind, Option.bind_some, h1]
      rfl
    · intro i hi
      cases i with
      | zero =>
        cases given with
        | nil => simp [debugName_eq]
        | cons g gs => simp
      | succ i =>
        simp only [List.length_cons] at hi
        rw [List.getElem?_cons_succ, h3 i (by omega)]
        cases given with
        | nil => simp [Nat.add_assoc, Nat.add_comm 1 i]
        | cons g gs => simp [Nat.add_assoc, Nat.add_comm 1 i]

theorem parameters_iff (flags : Nat) (m : MethodDescriptor) (given : List Param) (locals : List Local) (ps : List Param) (hm : IsMethod m) :
    parameters flags m given locals = some ps ↔ AreParameters flags m.parameters given locals ps := by
  unfold parameters AreParameters
  split
  · rename_i h
    constructor
    · intro e; cases e
    · rintro ⟨e, _⟩; omega
  · rename_i h
    obtain ⟨qs, h1, h2, h3⟩ := fill_eq locals m.parameters (if flags.testBit 3 then 0 else 1) 0 given hm.1 (by omega)
    rw [h1]
    constructor
    · intro e
      cases e
      refine ⟨by omega, h2, ?_⟩
      intro i hi
      rw [h3 i hi, Nat.zero_add]
      rfl
    · rintro ⟨_, h4, h5⟩
      congr 1
      apply List.ext_getElem?
      intro i
      by_cases hi : i < m.parameters.length
      · rw [h3 i hi, h5 i hi, Nat.zero_add]
        rfl
      · rw [List.getElem?_eq_none (by omega), List.getElem?_eq_none (by omega)]

theorem Parses.methodParams (cp : Pool) (n : Nat) : ∀ index, Parses (methodParams cp n index) (fun ps w => ∃ raw : List (Option Str × Nat), raw.length = n ∧
    Seq (fun x v => ∃ v1 v2, v = v1 ++ v2 ∧ OptRef (TextAt cp) x.1 v1 ∧ Num x.2 v2) raw w ∧
    ps = raw.mapIdx fun i x => { name := x.1.getD (argName (index + i)), flags := x.2 }) := by
  induction n with
  | zero =>
    intro index
    refine (Parses.pure []).congr ?_
    intro ps w
    constructor
    · rintro ⟨rfl, rfl⟩
      exact ⟨[], rfl, .nil, rfl⟩
    · rintro ⟨raw, h1, h2, rfl⟩
      cases h2 with
      | nil => exact ⟨rfl, rfl⟩
      | cons _ _ => simp at h1
  | succ n ih =>
    intro index
    refine ((Parses.optionalRef (utf8_iff cp)).bind fun name => Parses.u2.bind fun flags => (ih (index + 1)).bind fun l =>
      Parses.pure ({ name := name.getD (argName index), flags := flags } :: l)).congr ?_
    intro ps w
    constructor
    · rintro ⟨name, w1, w2, rfl, h1, flags, w3, w4, rfl, h2, l, w5, w6, rfl, ⟨raw, h3, h4, rfl⟩, rfl, rfl⟩
      refine ⟨(name, flags) :: raw, by simp [h3], ?_, ?_⟩
      · rw [List.append_nil, ← List.append_assoc]
        exact .cons ⟨w1, w3, rfl, h1, h2⟩ h4
      · rw [List.mapIdx_cons]
        simp only [Nat.add_zero, List.cons.injEq, true_and]
        congr 1
        funext i x
        rw [Nat.add_assoc, Nat.add_comm 1 i]
    · rintro ⟨raw, h1, h2, rfl⟩
      cases h2 with
      | nil => simp at h1
      | @cons a raw w w' h3 h4 =>
        obtain ⟨v1, v2, rfl, h5, h6⟩ := h3
        refine ⟨a.1, v1, v2 ++ w', by simp, h5, a.2, v2, w', rfl, h6, _, w', [], by simp, ⟨raw, by simpa using h1, h4, rfl⟩, ?_, rfl⟩
        rw [List.mapIdx_cons]
        simp only [Nat.add_zero, List.cons.injEq, true_and]
        congr 1
        funext i x
        rw [Nat.add_assoc, Nat.add_comm 1 i]

theorem methodParameters_iff (L : Limits) (cp : Pool) (b : Bytes) (ps : List Param) : methodParameters L cp b = some ps ↔ IsMethodParameters L cp ps b := by
  refine (whole_iff (Parses.u1.bind fun n => (Parses.must (n ≤ L.members)).bind fun _ => Parses.methodParams cp n 0) b ps).trans ?_
  constructor
  · rintro ⟨n, w1, w2, rfl, ⟨h1, rfl⟩, _, w3, w4, rfl, ⟨h2, rfl⟩, raw, rfl, h3, rfl⟩
    refine ⟨raw, w4, h1, h2, rfl, h3, ?_⟩
    simp
  · rintro ⟨raw, w', h1, h2, rfl, h3, rfl⟩
    refine ⟨raw.length, _, w', rfl, ⟨h1, rfl⟩, (), [], w', rfl, ⟨h2, rfl⟩, raw, rfl, h3, ?_⟩
    simp

end Verif.ClassFile
