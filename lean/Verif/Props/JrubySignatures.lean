import Verif.Lemmas.JrubySignatures
import Verif.Props.YardTypes
/-!
C84: the Ruby declarations made from a class file say what the class file says.
-/
namespace Verif.JrubySignatures
open Verif.JavaSource (Text Ty joinWith rsplitSlash splitDollar splitDollar_join splitDollar_parts splitDollar_of_join splitDollar_ne rsplitSlash_some joinWith_mem)

/-! ### Reading -/

theorem parse_classes {L : Letters} {s : Text} {n : Name} (h : parse L s = some n) : n.classes ≠ [] := by
  unfold parse at h
  split at h
  · cases h
  · split at h
    · injection h with h; rw [← h]; exact splitDollar_ne _
    · cases h

theorem at_snd (i : Nat) (ls : List Line) : (at_ i ls).map Prod.snd = ls := by
  unfold at_
  rw [List.map_map]
  exact List.map_id ls

/-- **C84 (what is read).** Ruby reads the generated file to its end with every scope closed, and what it declares is what the class file
declares: the modules of the package, the classes around, the class with its superclass and interfaces, each field as a constant or as a
reader and a writer, and each method with its parameters, documentation and visibility. -/
theorem c84_read (L : Letters) (c : ClassFile) (ls : List (Nat × Line)) (h : generate L c = some ls) :
    ∃ n, parse L c.name = some n ∧ read (ls.map Prod.snd) = some (declared L c n) := by
  unfold generate at h
  cases en : parse L c.name with
  | none => rw [en] at h; cases h
  | some n =>
    refine ⟨n, rfl, ?_⟩
    rw [en] at h
    simp only at h
    cases ef : fieldsLoop L c.fields with
    | none => rw [ef] at h; cases h
    | some fs =>
      rw [ef] at h
      simp only at h
      cases em : methodsLoop L c.kind .public_ c.methods with
      | none => rw [em] at h; cases h
      | some ms =>
        rw [em] at h
        injection h with h
        subst h
        have hcls := parse_classes en
        have hparts : parts n = [tJava, proxy n] ++ n.classes.dropLast ++ [n.classes.getLastD []] := by
          unfold parts
          cases hc : n.classes with
          | nil => exact absurd hc hcls
          | cons a as =>
            have := List.dropLast_append_getLast (l := a :: as) (by simp)
            rw [List.append_assoc, List.getLastD_cons, ← List.getLast_eq_getLastD]
            · rw [this]; rfl
            · simp
        generalize hsup : (if isModule c.kind then none else c.super.bind (fun s => (parse L s).map fqn)) = sup
        have hsup' : (if isModule c.kind then none else (rubyNames L c.super.toList).head?) = sup := by
          rw [← hsup]
          cases isModule c.kind with
          | true => rfl
          | false =>
            cases c.super with
            | none => rfl
            | some s =>
              unfold rubyNames
              simp only [Option.toList, List.filterMap_cons, Option.bind_some]
              cases parse L s <;> rfl
        let sc : List (Text × Keyword) := scopesOf n.classes.dropLast ++ [(proxy n, .public_), (tJava, .public_)]
        let last := n.classes.getLastD []
        have hpath : (last :: sc.map Prod.fst).reverse = parts n := by
          rw [hparts]
          simp [sc, last, scopesOf, List.map_reverse, Function.comp_def]
        let es1 : List Event := [.opened [tJava] true none, .opened [tJava, proxy n] true none] ++ outerEvents [tJava, proxy n] n.classes.dropLast
        let es2 := es1 ++ [.opened (parts n) (isModule c.kind) sup]
        have e1 : Reader.run ⟨[], {}, []⟩ [.header c.name, .enter true tJava none, .enter true (proxy n) none] =
            some ⟨[(proxy n, .public_), (tJava, .public_)], {}, [.opened [tJava] true none, .opened [tJava, proxy n] true none]⟩ := by
          simp [Reader.run, Reader.step, Reader.path]
        have e2 : Reader.run ⟨[(proxy n, .public_), (tJava, .public_)], {}, [.opened [tJava] true none, .opened [tJava, proxy n] true none]⟩
            ((outerOpen 4 n.classes.dropLast).map Prod.snd) = some ⟨sc, {}, es1⟩ := by
          rw [run_outerOpen]
          simp [sc, es1]
        have e3 : Reader.run ⟨sc, {}, es1⟩ [.enter (isModule c.kind) last sup] = some ⟨(last, .public_) :: sc, {}, es2⟩ := by
          have : (sc.map Prod.fst).reverse ++ [last] = parts n := by rw [← hpath, List.reverse_cons]
          simp only [Reader.run, Reader.step, Option.bind_some, Reader.path, this, es2]
        have e4 := run_includes L last sc c.interfaces es2
        have e5 := run_fieldsLoop L last sc c.fields fs ef (es2 ++ (rubyNames L c.interfaces).map (.included (last :: sc.map Prod.fst).reverse))
        obtain ⟨kw, e6⟩ := run_methodsLoop L c.kind last sc c.methods .public_ ms em
          (es2 ++ (rubyNames L c.interfaces).map (.included (last :: sc.map Prod.fst).reverse) ++
            c.fields.flatMap (fieldEvents L (last :: sc.map Prod.fst).reverse))
        rw [hpath] at e4 e5 e6
        have hd : es2 ++ (rubyNames L c.interfaces).map (.included (parts n)) ++ c.fields.flatMap (fieldEvents L (parts n)) ++
            (c.methods.filter (fun m => decide (Shown L m))).flatMap (methodEvent L (parts n)) = declared L c n := by
          unfold declared
          rw [hsup']
        rw [hd, show keyword Vis.public_ = Keyword.public_ from rfl] at e6
        have e7 : Reader.run ⟨(last, kw) :: sc, {}, declared L c n⟩ [.leave] = some ⟨sc, {}, declared L c n⟩ := by
          simp [Reader.run, Reader.step]
        have e8 := run_outerClose n.classes.dropLast (4 + 2 * n.classes.dropLast.length) (scopesOf n.classes.dropLast)
          [(proxy n, .public_), (tJava, .public_)] (declared L c n) (by simp [scopesOf])
        have e9 : Reader.run ⟨[(proxy n, .public_), (tJava, .public_)], {}, declared L c n⟩ [.leave, .leave] = some ⟨[], {}, declared L c n⟩ := by
          simp [Reader.run, Reader.step]
        unfold read
        simp only [List.map_append, List.map_cons, List.map_nil, at_snd, List.append_assoc]
        rw [run_of e1, run_of e2, run_of e3, run_of e4, run_of e5]
        rw [run_of e6, run_of e7, run_of e8, e9]

/-- **C84 (when there are declarations).** Declarations are generated exactly when the class has a name and the descriptors of all fields and
of all methods that are shown can be read. -/
theorem c84_total (L : Letters) (c : ClassFile) :
    (generate L c).isSome = true ↔ (parse L c.name).isSome = true ∧ (∀ f ∈ c.fields, f.ty.isSome = true) ∧
      ∀ m ∈ c.methods, Shown L m → m.descriptor.isSome = true := by
  have hf : ∀ fs : List FieldInfo, (fieldsLoop L fs).isSome = true ↔ ∀ f ∈ fs, f.ty.isSome = true := by
    intro fs
    induction fs with
    | nil => simp [fieldsLoop]
    | cons f fs ih =>
      have h1 : (fieldLines L f).isSome = f.ty.isSome := by
        unfold fieldLines
        cases f.ty with
        | none => rfl
        | some t => simp only; split <;> split <;> rfl
      simp only [fieldsLoop, List.forall_mem_cons, ← ih, ← h1]
      cases fieldLines L f with
      | none => simp
      | some l => cases fieldsLoop L fs <;> simp
  have hm : ∀ (ms : List Method) (cur : Vis), (methodsLoop L c.kind cur ms).isSome = true ↔ ∀ m ∈ ms, Shown L m → m.descriptor.isSome = true := by
    intro ms
    induction ms with
    | nil => intro cur; simp [methodsLoop]
    | cons m ms ih =>
      intro cur
      simp only [methodsLoop, List.forall_mem_cons]
      by_cases h1 : m.name = tClinit
      · rw [if_pos h1, ih]; simp [Shown, h1]
      · rw [if_neg h1]
        cases h2 : validMethod L (methodName m) with
        | false => simp only [Bool.not_false, if_true]; rw [ih]; simp [Shown, h2]
        | true =>
          simp only [Bool.not_true, Bool.false_eq_true, if_false]
          have h3 : (methodLines L c.kind m).isSome = m.descriptor.isSome := by
            unfold methodLines
            cases m.descriptor with
            | none => rfl
            | some d => rfl
          rw [← ih m.vis, ← h3]
          cases methodLines L c.kind m with
          | none => simp [Shown, h1, h2]
          | some l => cases methodsLoop L c.kind m.vis ms <;> simp
  rw [← hf, ← hm c.methods .public_]
  unfold generate
  cases parse L c.name with
  | none => simp
  | some n =>
    cases fieldsLoop L c.fields with
    | none => simp
    | some fs => cases methodsLoop L c.kind .public_ c.methods <;> simp

/-! ### Indentation -/

/-- Lines that open and close nothing. -/
def Flat : Line → Prop
  | .enter _ _ _ => False
  | .leave => False
  | _ => True

theorem indented_flat (d : Nat) (ls : List Line) (h : ∀ l ∈ ls, Flat l) (rest : List (Nat × Line)) (hr : Indented d rest) :
    Indented d (at_ (2 * d) ls ++ rest) := by
  induction ls with
  | nil => exact hr
  | cons l ls ih =>
    have hl := h l List.mem_cons_self
    have ih := ih (fun x hx => h x (List.mem_cons_of_mem _ hx))
    cases l <;> first | exact absurd hl (fun e => e) | exact (by cases d <;> exact ⟨rfl, ih⟩)

theorem indented_open : ∀ (ts : List Text) (d : Nat) (rest : List (Nat × Line)), Indented (d + ts.length) rest →
    Indented d (outerOpen (2 * d) ts ++ rest)
  | [], _, _, h => h
  | t :: ts, d, rest, h => by
    refine ⟨rfl, ?_⟩
    have := indented_open ts (d + 1) rest (by rw [List.length_cons] at h; rw [show d + 1 + ts.length = d + (ts.length + 1) by omega]; exact h)
    rw [show 2 * (d + 1) = 2 * d + 2 by omega] at this
    exact this

theorem indented_close : ∀ (ts : List Text) (d : Nat) (rest : List (Nat × Line)), Indented d rest →
    Indented (d + ts.length) (outerClose (2 * (d + ts.length)) ts ++ rest)
  | [], _, _, h => h
  | t :: ts, d, rest, h => by
    have := indented_close ts d rest h
    rw [List.length_cons, show d + (ts.length + 1) = (d + ts.length) + 1 by omega]
    simp only [outerClose, List.cons_append, show 2 * (d + ts.length + 1) - 2 = 2 * (d + ts.length) by omega]
    exact ⟨rfl, this⟩

theorem flat_docParams (L : Letters) (ns : List Text) : ∀ (ts : List Ty) (i : Nat), ∀ l ∈ docParams L ns i ts, Flat l
  | [], _, l, h => by cases h
  | t :: ts, i, l, h => by
    rcases List.mem_cons.1 h with rfl | h
    · trivial
    · exact flat_docParams L ns ts _ l h

theorem flat_method (L : Letters) (k : Kind) (m : Method) (ls : List Line) (h : methodLines L k m = some ls) : ∀ l ∈ ls, Flat l := by
  unfold methodLines at h
  cases e : m.descriptor with
  | none => rw [e] at h; cases h
  | some d =>
    rw [e] at h
    injection h with h
    subst h
    intro l hl
    unfold docLines at hl
    simp only [List.mem_append, List.mem_cons, List.not_mem_nil, or_false] at hl
    rcases hl with (hl | rfl | hl) | rfl | rfl
    · exact flat_docParams L _ _ _ l hl
    · trivial
    · split at hl
      · cases hl
      · rw [List.mem_singleton] at hl; subst hl; trivial
    · trivial
    · trivial

theorem mem_methodsLoop (L : Letters) (k : Kind) : ∀ (ms : List Method) (cur : Vis) (ls : List Line), methodsLoop L k cur ms = some ls →
    ∀ l ∈ ls, (∃ kw, l = .vis kw) ∨ ∃ m ∈ ms, Shown L m ∧ ∃ l1, methodLines L k m = some l1 ∧ l ∈ l1
  | [], cur, ls, h => by
    simp only [methodsLoop, Option.some.injEq] at h
    subst h
    intro l hl
    cases hl
  | m :: ms, cur, ls, h => by
    have ih := mem_methodsLoop L k ms
    have lift : ∀ (cur : Vis) (ls : List Line), methodsLoop L k cur ms = some ls → ∀ l ∈ ls,
        (∃ kw, l = .vis kw) ∨ ∃ m' ∈ m :: ms, Shown L m' ∧ ∃ l1, methodLines L k m' = some l1 ∧ l ∈ l1 := by
      intro cur ls h l hl
      rcases ih cur ls h l hl with h | ⟨m', hm, h⟩
      · exact .inl h
      · exact .inr ⟨m', List.mem_cons_of_mem _ hm, h⟩
    simp only [methodsLoop] at h
    by_cases h1 : m.name = tClinit
    · rw [if_pos h1] at h; exact lift cur ls h
    · rw [if_neg h1] at h
      cases h2 : validMethod L (methodName m) with
      | false => rw [h2] at h; exact lift cur ls h
      | true =>
        rw [h2] at h
        simp only [Bool.not_true, Bool.false_eq_true, if_false] at h
        cases e1 : methodLines L k m with
        | none => rw [e1] at h; cases h
        | some l1 =>
          rw [e1] at h
          simp only at h
          cases e2 : methodsLoop L k m.vis ms with
          | none => rw [e2] at h; cases h
          | some l2 =>
            rw [e2] at h
            simp only [Option.some.injEq] at h
            subst h
            intro l hl
            rcases List.mem_append.1 hl with hl | hl
            · rcases List.mem_append.1 hl with hl | hl
              · split at hl
                · rw [List.mem_singleton] at hl; exact .inl ⟨_, hl⟩
                · cases hl
              · exact .inr ⟨m, List.mem_cons_self, ⟨h1, h2⟩, l1, e1, hl⟩
            · exact lift _ _ e2 l hl

theorem mem_fieldsLoop (L : Letters) : ∀ (fs : List FieldInfo) (ls : List Line), fieldsLoop L fs = some ls →
    ∀ l ∈ ls, ∃ f ∈ fs, ∃ l1, fieldLines L f = some l1 ∧ l ∈ l1
  | [], ls, h => by
    simp only [fieldsLoop, Option.some.injEq] at h
    subst h
    intro l hl
    cases hl
  | f :: fs, ls, h => by
    simp only [fieldsLoop] at h
    cases e1 : fieldLines L f with
    | none => rw [e1] at h; cases h
    | some l1 =>
      rw [e1] at h
      simp only at h
      cases e2 : fieldsLoop L fs with
      | none => rw [e2] at h; cases h
      | some l2 =>
        rw [e2] at h
        simp only [Option.some.injEq] at h
        subst h
        intro l hl
        rcases List.mem_append.1 hl with hl | hl
        · exact ⟨f, List.mem_cons_self, l1, e1, hl⟩
        · obtain ⟨f', hf, h⟩ := mem_fieldsLoop L fs l2 e2 l hl
          exact ⟨f', List.mem_cons_of_mem _ hf, h⟩

/-- The lines of a field. -/
theorem mem_fieldLines (L : Letters) (f : FieldInfo) (ls : List Line) (h : fieldLines L f = some ls) : ∃ ty, f.ty = some ty ∧
    ∀ l ∈ ls, (∃ n, l = .note n) ∨ l = .type_ (rubyType L ty) ∨ l = .returns (rubyType L ty) ∨ l = .param tValue (rubyType L ty) ∨
      (l = .const f.name ∧ validConstant L f.name = true) ∨
      (validMethod L f.name = true ∧ (l = .def_ f.isStatic f.name [] ∨ l = .def_ f.isStatic (f.name ++ ['=']) [tValue])) := by
  unfold fieldLines at h
  cases e : f.ty with
  | none => rw [e] at h; cases h
  | some ty =>
    refine ⟨ty, rfl, ?_⟩
    rw [e] at h
    simp only at h
    split at h
    · split at h
      · rename_i hv
        injection h with h
        subst h
        intro l hl
        simp only [List.mem_cons, List.not_mem_nil, or_false] at hl
        rcases hl with rfl | rfl | rfl
        · exact .inl ⟨_, rfl⟩
        · exact .inr (.inl rfl)
        · exact .inr (.inr (.inr (.inr (.inl ⟨rfl, hv⟩))))
      · injection h with h
        subst h
        intro l hl
        cases hl
    · split at h
      · rename_i hv
        injection h with h
        subst h
        intro l hl
        simp only [List.mem_cons, List.not_mem_nil, or_false] at hl
        rcases hl with rfl | rfl | rfl | rfl | rfl
        · exact .inl ⟨_, rfl⟩
        · exact .inr (.inr (.inl rfl))
        · exact .inr (.inr (.inr (.inr (.inr ⟨hv, .inl rfl⟩))))
        · exact .inr (.inr (.inr (.inl rfl)))
        · exact .inr (.inr (.inr (.inr (.inr ⟨hv, .inr rfl⟩))))
      · injection h with h
        subst h
        intro l hl
        cases hl

/-- **C84 (layout).** Every line stands two columns deeper for every scope around it, an `end` under what it ends, and nothing stays open. -/
theorem c84_indent (L : Letters) (c : ClassFile) (ls : List (Nat × Line)) (h : generate L c = some ls) : Indented 0 ls := by
  unfold generate at h
  cases en : parse L c.name with
  | none => rw [en] at h; cases h
  | some n =>
    rw [en] at h
    simp only at h
    cases ef : fieldsLoop L c.fields with
    | none => rw [ef] at h; cases h
    | some fs =>
      rw [ef] at h
      simp only at h
      cases em : methodsLoop L c.kind .public_ c.methods with
      | none => rw [em] at h; cases h
      | some ms =>
        rw [em] at h
        injection h with h
        subst h
        generalize hk : n.classes.dropLast = outer
        simp only [List.append_assoc, List.cons_append, List.nil_append]
        refine ⟨rfl, rfl, rfl, ?_⟩
        refine indented_open outer 2 _ ?_
        refine ⟨by omega, ?_⟩
        rw [show 4 + 2 * outer.length + 2 = 2 * (2 + outer.length + 1) by omega]
        refine indented_flat _ _ ?_ _ ?_
        · intro l hl
          rcases List.mem_append.1 hl with hl | hl
          · obtain ⟨i, _, hi⟩ := List.mem_filterMap.1 hl
            cases e : parse L i with
            | none => rw [e] at hi; cases hi
            | some x => rw [e] at hi; injection hi with hi; subst hi; trivial
          · rcases List.mem_append.1 hl with hl | hl
            · obtain ⟨f, _, l1, e1, hl⟩ := mem_fieldsLoop L _ _ ef l hl
              obtain ⟨ty, _, hh⟩ := mem_fieldLines L f l1 e1
              rcases hh l hl with ⟨_, rfl⟩ | rfl | rfl | rfl | ⟨rfl, _⟩ | ⟨_, rfl | rfl⟩ <;> trivial
            · rcases mem_methodsLoop L _ _ _ _ em l hl with ⟨_, rfl⟩ | ⟨m, _, _, l1, e1, hl⟩
              · trivial
              · exact flat_method L _ m l1 e1 l hl
        · refine ⟨by omega, ?_⟩
          rw [show 4 + 2 * outer.length = 2 * (2 + outer.length) by omega]
          exact indented_close outer 2 _ ⟨rfl, rfl, rfl⟩

/-! ### Names -/

theorem validIdent_iff (L : Letters) (t : Text) : validIdent L t = true ↔ Ident L t := by
  unfold Ident
  cases t with
  | nil => simp [validIdent]
  | cons c cs =>
    simp only [validIdent, Bool.and_eq_true, Bool.or_eq_true, beq_iff_eq, List.all_eq_true, or_assoc]
    constructor
    · rintro ⟨h1, h2⟩
      exact ⟨c, cs, rfl, h1, h2⟩
    · rintro ⟨c', r, e, h1, h2⟩
      injection e with e1 e2
      subst e1 e2
      exact ⟨h1, h2⟩

theorem ident_notin {L : Letters} {t : Text} (h : Ident L t) (x : Char) (hx : x ∈ ['\n', ':', '/', '*']) : x ∉ t := by
  obtain ⟨c, r, rfl, hc, hr⟩ := h
  have p := L.plain x hx
  have q : x ≠ '_' ∧ x ≠ '$' := by
    constructor <;> (rintro rfl; revert hx; decide)
  intro hm
  rcases List.mem_cons.1 hm with rfl | hm
  · rcases hc with h | h | h
    · rw [p.1] at h; cases h
    · exact q.1 h
    · exact q.2 h
  · rcases hr x hm with h | h | h
    · rw [p.2.1] at h; cases h
    · exact q.1 h
    · exact q.2 h

/-- **C84 (class names).** A class name has a Ruby name exactly when it is made of at least one package and at least one class, all of them
names; dots and slashes separate packages, dollars separate classes. -/
theorem c84_name (L : Letters) (s : Text) (n : Name) :
    parse L s = some n ↔ n.package ≠ [] ∧ n.classes ≠ [] ∧ (∀ p ∈ n.package, Ident L p) ∧ (∀ k ∈ n.classes, Ident L k ∧ '$' ∉ k) ∧
      slashed s = joinWith '/' n.package ++ '/' :: joinWith '$' n.classes := by
  obtain ⟨pk, cl⟩ := n
  have hs : (s.map (fun c => if c = '.' then '/' else c)) = slashed s := rfl
  unfold parse
  rw [hs]
  dsimp only
  constructor
  · intro h
    cases e : rsplitSlash (slashed s) with
    | none => rw [e] at h; cases h
    | some pc =>
      obtain ⟨p, c⟩ := pc
      rw [e] at h
      dsimp only at h
      split at h
      · rename_i hv
        simp only [Bool.and_eq_true, List.all_eq_true, validIdent_iff] at hv
        injection h with h
        injection h with h1 h2
        subst h1 h2
        refine ⟨splitSlash_ne _, splitDollar_ne _, hv.1, fun k hk => ⟨hv.2 k hk, (splitDollar_parts c k hk).1⟩, ?_⟩
        rw [splitSlash_join, splitDollar_join]
        exact ((rsplitSlash_some _ _ _).1 e).1
      · cases h
  · rintro ⟨h1, h2, h3, h4, h5⟩
    have e : rsplitSlash (slashed s) = some (joinWith '/' pk, joinWith '$' cl) := by
      refine (rsplitSlash_some _ _ _).2 ⟨h5, ?_⟩
      intro hm
      rcases joinWith_mem '$' cl '/' hm with h | ⟨k, hk, hx⟩
      · revert h; decide
      · exact ident_notin (h4 k hk).1 '/' (by decide) hx
    rw [e]
    dsimp only
    rw [splitSlash_of_join pk h1 (fun p hp => ident_notin (h3 p hp) '/' (by decide)), splitDollar_of_join cl h2 (fun p hp => (h4 p hp).2)]
    rw [if_pos]
    simp only [Bool.and_eq_true, List.all_eq_true, validIdent_iff]
    exact ⟨h3, fun k hk => (h4 k hk).1⟩

theorem upcase_cases (c : Char) : upcase c = c ∨ (65 ≤ (upcase c).toNat ∧ (upcase c).toNat ≤ 90) := by
  unfold upcase
  split
  · rename_i h
    right
    have h1 : 97 ≤ c.toNat := h.1
    have h2 : c.toNat ≤ 122 := h.2
    have : ∀ k, k < 128 → (Char.ofNat k).toNat = k := by decide
    rw [this _ (by omega)]
    omega
  · left; rfl

theorem capitalize_mem {x : Char} (hx : x.toNat < 65) {t : Text} (h : x ∈ capitalize t) : x ∈ t := by
  cases t with
  | nil => exact h
  | cons c cs =>
    rcases List.mem_cons.1 h with h | h
    · rcases upcase_cases c with e | ⟨e, _⟩
      · rw [h, e]; exact List.mem_cons_self
      · rw [← h] at e; omega
    · exact List.mem_cons_of_mem _ h

/-- No part of a Ruby name has a colon, a line feed, a slash or a star in it. -/
theorem parts_notin {L : Letters} {s : Text} {n : Name} (h : parse L s = some n) (x : Char) (hx : x ∈ ['\n', ':', '/', '*']) :
    ∀ p ∈ parts n, x ∉ p := by
  obtain ⟨_, _, h3, h4, _⟩ := (c84_name L s n).1 h
  have hlt : x.toNat < 65 := by revert hx; revert x; decide
  intro p hp
  rcases List.mem_cons.1 hp with rfl | hp
  · clear hlt; revert hx; revert x; decide
  · rcases List.mem_cons.1 hp with rfl | hp
    · intro hm
      obtain ⟨t, ht, hm⟩ := List.mem_flatMap.1 hm
      exact ident_notin (h3 t ht) x hx (capitalize_mem hlt hm)
    · exact ident_notin (h4 p hp).1 x hx

theorem joinColons_mem : ∀ (ts : List Text) (x : Char), x ∈ joinColons ts → x = ':' ∨ ∃ t ∈ ts, x ∈ t
  | [], x, h => by cases h
  | [t], x, h => .inr ⟨t, List.mem_cons_self, h⟩
  | t :: u :: ts, x, h => by
    simp only [joinColons, List.mem_append, List.mem_cons] at h
    rcases h with h | h | h | h
    · exact .inr ⟨t, List.mem_cons_self, h⟩
    · exact .inl h
    · exact .inl h
    · rcases joinColons_mem (u :: ts) x h with h | ⟨v, hv, hx⟩
      · exact .inl h
      · exact .inr ⟨v, List.mem_cons_of_mem _ hv, hx⟩

theorem cut_colon : ∀ (a b x y : Text), ':' ∉ a → ':' ∉ b → a ++ ':' :: x = b ++ ':' :: y → a = b ∧ x = y
  | [], [], x, y, _, _, h => by injection h with _ h; exact ⟨rfl, h⟩
  | [], c :: b, x, y, _, hb, h => by injection h with h _; exact absurd (h ▸ List.mem_cons_self) hb
  | c :: a, [], x, y, ha, _, h => by injection h with h _; exact absurd (h ▸ List.mem_cons_self) ha
  | c :: a, d :: b, x, y, ha, hb, h => by
    injection h with h1 h2
    obtain ⟨e1, e2⟩ := cut_colon a b x y (fun m => ha (List.mem_cons_of_mem _ m)) (fun m => hb (List.mem_cons_of_mem _ m)) h2
    exact ⟨by rw [h1, e1], e2⟩

theorem joinColons_inj : ∀ (a b : List Text), a ≠ [] → b ≠ [] → (∀ p ∈ a, ':' ∉ p) → (∀ p ∈ b, ':' ∉ p) → joinColons a = joinColons b → a = b
  | [], _, h, _, _, _, _ => absurd rfl h
  | _, [], _, h, _, _, _ => absurd rfl h
  | [t], [u], _, _, _, _, h => by rw [show t = u from h]
  | [t], u :: v :: us, _, _, ha, _, h => by
    exfalso
    apply ha t List.mem_cons_self
    have h : t = u ++ ':' :: ':' :: joinColons (v :: us) := h
    rw [h]; simp
  | t :: w :: ts, [u], _, _, _, hb, h => by
    exfalso
    apply hb u List.mem_cons_self
    have h : t ++ ':' :: ':' :: joinColons (w :: ts) = u := h
    rw [← h]; simp
  | t :: w :: ts, u :: v :: us, _, _, ha, hb, h => by
    obtain ⟨e1, e2⟩ := cut_colon t u _ _ (ha t List.mem_cons_self) (hb u List.mem_cons_self) h
    injection e2 with _ e2
    have := joinColons_inj (w :: ts) (v :: us) (by simp) (by simp) (fun p hp => ha p (List.mem_cons_of_mem _ hp))
      (fun p hp => hb p (List.mem_cons_of_mem _ hp)) e2
    rw [e1, this]

/-- **C84 (Ruby names).** A Ruby name tells the classes and the module of the package; only the package itself is not told by its module. -/
theorem c84_fqn (L : Letters) (a b : Text) (n m : Name) (ha : parse L a = some n) (hb : parse L b = some m) :
    (fqn n = fqn m ↔ proxy n = proxy m ∧ n.classes = m.classes) ∧ (n.package = m.package → fqn n = fqn m → slashed a = slashed b) := by
  have key : fqn n = fqn m ↔ proxy n = proxy m ∧ n.classes = m.classes := by
    constructor
    · intro h
      have := joinColons_inj (parts n) (parts m) (by simp [parts]) (by simp [parts]) (parts_notin ha ':' (by decide))
        (parts_notin hb ':' (by decide)) h
      simpa [parts] using this
    · rintro ⟨h1, h2⟩
      unfold fqn parts
      rw [h1, h2]
  refine ⟨key, fun h1 h2 => ?_⟩
  rw [((c84_name L a n).1 ha).2.2.2.2, ((c84_name L b m).1 hb).2.2.2.2, h1, (key.1 h2).2]

/-! ### Lines of the text -/

theorem linesOf_cons : ∀ (t rest : Text), '\n' ∉ t → linesOf (t ++ '\n' :: rest) = t :: linesOf rest
  | [], rest, _ => by simp only [List.nil_append, linesOf, if_true]
  | c :: t, rest, h => by
    have hc : c ≠ '\n' := fun e => h (by rw [e]; exact List.mem_cons_self)
    have ih := linesOf_cons t rest (fun e => h (List.mem_cons_of_mem _ e))
    simp only [List.cons_append, linesOf, if_neg hc, ih]

theorem fqn_clean {L : Letters} {s : Text} {n : Name} (h : parse L s = some n) : '\n' ∉ fqn n := by
  intro hm
  rcases joinColons_mem _ _ hm with e | ⟨p, hp, hx⟩
  · revert e; decide
  · exact parts_notin h '\n' (by decide) p hp hx

theorem rubyType_clean (L : Letters) (t : Ty) : '\n' ∉ rubyType L t := by
  induction t with
  | object name =>
    unfold rubyType
    split
    · rename_i n e; exact fqn_clean e
    · decide
  | array e ih =>
    unfold rubyType
    simp only [List.mem_append, not_or]
    exact ⟨⟨by decide, ih⟩, by decide⟩
  | _ => unfold rubyType; decide

theorem digits_notin (i : Nat) (x : Char) (hx : x.isDigit = false) : x ∉ ['a', 'r', 'g'] ++ Nat.toDigits 10 i ∨ x ∈ ['a', 'r', 'g'] := by
  by_cases h : x ∈ ['a', 'r', 'g']
  · exact .inr h
  · refine .inl (fun hm => ?_)
    rcases List.mem_append.1 hm with hm | hm
    · exact h hm
    · rw [Nat.isDigit_of_mem_toDigits (by omega) (by omega) hm] at hx; cases hx

theorem validLocal_notin {L : Letters} {t : Text} (h : validLocal L t = true) (x : Char) (hx : x ∈ ['\n', ':', '/', '*']) : x ∉ t := by
  unfold validLocal at h
  cases t with
  | nil => simp
  | cons c cs =>
    simp only [Bool.and_eq_true, Bool.or_eq_true, beq_iff_eq, List.all_eq_true] at h
    have p := L.plain x hx
    have q : x ≠ '_' := by rintro rfl; revert hx; decide
    intro hm
    rcases List.mem_cons.1 hm with rfl | hm
    · rcases h.1.1 with h | h
      · rw [p.2.2.1] at h; cases h
      · exact q h
    · rcases h.1.2 x hm with h | h
      · rw [p.2.1] at h; cases h
      · exact q h

theorem paramName_notin (L : Letters) (t : Text) (i : Nat) (x : Char) (hx : x ∈ ['\n', ':', '/', '*']) : x ∉ paramName L t i := by
  unfold paramName
  split
  · rename_i h; exact validLocal_notin h x hx
  · rcases digits_notin i x (by revert hx; revert x; decide) with h | h
    · exact h
    · exfalso; revert hx h; revert x; decide

theorem argName_notin (L : Letters) (m : Method) (i : Nat) (x : Char) (hx : x ∈ ['\n', ':', '/', '*']) : x ∉ argName L m i := by
  rw [← paramName_argName]
  unfold docName
  split
  · exact paramName_notin L _ i x hx
  · rcases digits_notin i x (by revert hx; revert x; decide) with h | h
    · exact h
    · exfalso; revert hx h; revert x; decide

theorem validMethod_clean {L : Letters} {t : Text} (h : validMethod L t = true) : '\n' ∉ t := by
  unfold validMethod stem at h
  split at h
  · rename_i hl
    have hc := validLocal_notin h '\n' (by decide)
    intro hm
    have hne : t ≠ [] := by rintro rfl; cases hm
    rw [← List.dropLast_append_getLast hne] at hm
    rcases List.mem_append.1 hm with hm | hm
    · exact hc hm
    · rw [List.mem_singleton] at hm
      rw [List.getLast?_eq_some_getLast hne, ← hm] at hl
      revert hl; decide
  · exact validLocal_notin h '\n' (by decide)

theorem validConstant_clean {L : Letters} {t : Text} (h : validConstant L t = true) : '\n' ∉ t := by
  unfold validConstant at h
  simp only [Bool.and_eq_true, List.all_eq_true, Bool.or_eq_true, beq_iff_eq] at h
  intro hm
  rcases h.2 _ hm with h | h
  · rw [(L.plain '\n' (by decide)).2.1] at h; cases h
  · revert h; decide

theorem commas_clean : ∀ ts : List Text, (∀ t ∈ ts, '\n' ∉ t) → '\n' ∉ commas ts
  | [], _ => by simp [commas]
  | [t], h => h t List.mem_cons_self
  | t :: u :: ts, h => by
    simp only [commas, List.mem_append, List.mem_cons, not_or]
    exact ⟨h t List.mem_cons_self, by decide, by decide, commas_clean (u :: ts) (fun v hv => h v (List.mem_cons_of_mem _ hv))⟩

theorem note_clean (n : Note) : '\n' ∉ n.text := by cases n <;> decide +kernel

/-- The names in a line have no line feed. -/
def CleanLine : Line → Prop
  | .header n => '\n' ∉ n
  | .enter _ n s => '\n' ∉ n ∧ ∀ t, s = some t → '\n' ∉ t
  | .include_ t => '\n' ∉ t
  | .type_ t => '\n' ∉ t
  | .returns t => '\n' ∉ t
  | .param n t => '\n' ∉ n ∧ '\n' ∉ t
  | .raise ts => ∀ t ∈ ts, '\n' ∉ t
  | .const n => '\n' ∉ n
  | .def_ _ n ps => '\n' ∉ n ∧ ∀ t ∈ ps, '\n' ∉ t
  | .leave => True
  | .note _ => True
  | .vis _ => True

theorem text_clean (l : Line) (h : CleanLine l) : '\n' ∉ l.text := by
  cases l with
  | header n => simp only [Line.text, List.mem_append, not_or]; exact ⟨⟨by decide +kernel, h⟩, by decide +kernel⟩
  | enter m n s =>
    simp only [Line.text, List.mem_append, not_or]
    refine ⟨⟨by cases m <;> decide +kernel, h.1⟩, ?_⟩
    cases s with
    | none => simp
    | some t => simp only [List.mem_append, not_or]; exact ⟨by decide +kernel, h.2 t rfl⟩
  | leave => decide +kernel
  | include_ t => simp only [Line.text, List.mem_append, not_or]; exact ⟨by decide +kernel, h⟩
  | note n => simp only [Line.text, List.mem_append, not_or]; exact ⟨by decide +kernel, note_clean n⟩
  | type_ t => simp only [Line.text, List.mem_append, not_or]; exact ⟨⟨by decide +kernel, h⟩, by decide +kernel⟩
  | returns t => simp only [Line.text, List.mem_append, not_or]; exact ⟨⟨by decide +kernel, h⟩, by decide +kernel⟩
  | param n t =>
    simp only [Line.text, List.mem_append, not_or]
    exact ⟨⟨⟨⟨by decide +kernel, h.1⟩, by decide +kernel⟩, h.2⟩, by decide +kernel⟩
  | raise ts => simp only [Line.text, List.mem_append, not_or]; exact ⟨⟨by decide +kernel, commas_clean ts h⟩, by decide +kernel⟩
  | const n => simp only [Line.text, List.mem_append, not_or]; exact ⟨h, by decide +kernel⟩
  | vis k => cases k <;> decide +kernel
  | def_ s n ps =>
    simp only [Line.text, List.mem_append, not_or]
    exact ⟨⟨⟨⟨⟨by decide +kernel, by cases s <;> decide +kernel⟩, h.1⟩, by decide +kernel⟩, commas_clean ps h.2⟩, by decide +kernel⟩

theorem clean_docParams (L : Letters) (m : Method) : ∀ (ts : List Ty) (i : Nat), ∀ l ∈ docParams L m.params i ts, CleanLine l
  | [], _, l, h => by cases h
  | t :: ts, i, l, h => by
    rcases List.mem_cons.1 h with rfl | h
    · refine ⟨?_, rubyType_clean L t⟩
      rw [paramName_argName]
      exact argName_notin L m i '\n' (by decide)
    · exact clean_docParams L m ts _ l h

theorem rubyNames_clean (L : Letters) (ns : List Text) : ∀ t ∈ rubyNames L ns, '\n' ∉ t := by
  intro t ht
  obtain ⟨n, hn, rfl⟩ := List.mem_map.1 ht
  obtain ⟨s, _, hs⟩ := List.mem_filterMap.1 hn
  exact fqn_clean hs

theorem clean_method (L : Letters) (k : Kind) (m : Method) (hs : Shown L m) (ls : List Line) (h : methodLines L k m = some ls) :
    ∀ l ∈ ls, CleanLine l := by
  unfold methodLines at h
  cases e : m.descriptor with
  | none => rw [e] at h; cases h
  | some d =>
    rw [e] at h
    injection h with h
    subst h
    intro l hl
    unfold docLines at hl
    simp only [List.mem_append, List.mem_cons, List.not_mem_nil, or_false] at hl
    rcases hl with (hl | rfl | hl) | rfl | rfl
    · exact clean_docParams L m _ _ l hl
    · exact rubyType_clean L _
    · split at hl
      · cases hl
      · rw [List.mem_singleton] at hl
        subst hl
        rw [raises_eq]
        exact rubyNames_clean L _
    · trivial
    · refine ⟨validMethod_clean hs.2, fun t ht => ?_⟩
      rw [defParams_eq] at ht
      obtain ⟨i, _, rfl⟩ := List.mem_map.1 ht
      simp only [List.mem_append, not_or]
      exact ⟨by split <;> decide, argName_notin L m i '\n' (by decide)⟩

theorem clean_field (L : Letters) (f : FieldInfo) (ls : List Line) (h : fieldLines L f = some ls) : ∀ l ∈ ls, CleanLine l := by
  obtain ⟨ty, _, hh⟩ := mem_fieldLines L f ls h
  intro l hl
  rcases hh l hl with ⟨_, rfl⟩ | rfl | rfl | rfl | ⟨rfl, hv⟩ | ⟨hv, rfl | rfl⟩
  · trivial
  · exact rubyType_clean L ty
  · exact rubyType_clean L ty
  · exact ⟨by decide, rubyType_clean L ty⟩
  · exact validConstant_clean hv
  · exact ⟨validMethod_clean hv, fun t ht => by cases ht⟩
  · refine ⟨?_, fun t ht => ?_⟩
    · simp only [List.mem_append, not_or]; exact ⟨validMethod_clean hv, by decide⟩
    · rw [List.mem_singleton] at ht; subst ht; decide

theorem name_clean {L : Letters} {s : Text} {n : Name} (h : parse L s = some n) : '\n' ∉ s := by
  obtain ⟨_, _, h3, h4, h5⟩ := (c84_name L s n).1 h
  intro hm
  have : '\n' ∈ slashed s := List.mem_map.2 ⟨'\n', hm, by decide⟩
  rw [h5] at this
  rcases List.mem_append.1 this with hm | hm
  · rcases joinWith_mem _ _ _ hm with e | ⟨p, hp, hx⟩
    · revert e; decide
    · exact ident_notin (h3 p hp) '\n' (by decide) hx
  · rcases List.mem_cons.1 hm with e | hm
    · revert e; decide
    · rcases joinWith_mem _ _ _ hm with e | ⟨p, hp, hx⟩
      · revert e; decide
      · exact ident_notin (h4 p hp).1 '\n' (by decide) hx

/-- **C84 (no line is smuggled in).** Whatever names a class file has, the text has exactly the generated lines. -/
theorem c84_lines (L : Letters) (c : ClassFile) (ls : List (Nat × Line)) (h : generate L c = some ls) :
    linesOf (render ls) = ls.map (fun p => List.replicate p.1 ' ' ++ p.2.text) := by
  have hall : ∀ p ∈ ls, CleanLine p.2 := by
    unfold generate at h
    cases en : parse L c.name with
    | none => rw [en] at h; cases h
    | some n =>
      rw [en] at h
      simp only at h
      cases ef : fieldsLoop L c.fields with
      | none => rw [ef] at h; cases h
      | some fs =>
        rw [ef] at h
        simp only at h
        cases em : methodsLoop L c.kind .public_ c.methods with
        | none => rw [em] at h; cases h
        | some ms =>
          rw [em] at h
          injection h with h
          subst h
          have hp := parts_notin en '\n' (by decide)
          have hcl : ∀ t ∈ n.classes, '\n' ∉ t := fun t ht => hp t (List.mem_cons_of_mem _ (List.mem_cons_of_mem _ ht))
          have hopen : ∀ (ts : List Text) (i : Nat), (∀ t ∈ ts, '\n' ∉ t) → ∀ p ∈ outerOpen i ts, CleanLine p.2 := by
            intro ts
            induction ts with
            | nil => intro i _ p hp; cases hp
            | cons t ts ih =>
              intro i hts p hp
              rcases List.mem_cons.1 hp with rfl | hp
              · exact ⟨hts t List.mem_cons_self, (fun u hu => by cases hu)⟩
              · exact ih _ (fun u hu => hts u (List.mem_cons_of_mem _ hu)) p hp
          have hclose : ∀ (ts : List Text) (i : Nat), ∀ p ∈ outerClose i ts, CleanLine p.2 := by
            intro ts
            induction ts with
            | nil => intro i p hp; cases hp
            | cons t ts ih =>
              intro i p hp
              rcases List.mem_cons.1 hp with rfl | hp
              · trivial
              · exact ih _ p hp
          intro p hmem
          simp only [List.mem_append, List.mem_cons, List.not_mem_nil, or_false] at hmem
          rcases hmem with ((((((rfl | rfl | rfl) | hm) | rfl) | hm) | rfl) | hm) | rfl | rfl
          · exact name_clean en
          · exact ⟨by decide, (fun u hu => by cases hu)⟩
          · exact ⟨hp _ (List.mem_cons_of_mem _ List.mem_cons_self), (fun u hu => by cases hu)⟩
          · exact hopen _ _ (fun t ht => hcl t (List.dropLast_subset _ ht)) p hm
          · refine ⟨?_, fun u hu => ?_⟩
            · have hne := parse_classes en
              cases hc : n.classes with
              | nil => exact absurd hc hne
              | cons a as =>
                rw [List.getLastD_cons, ← List.getLast_eq_getLastD]
                · exact hcl _ (by rw [hc]; exact List.getLast_mem (l := a :: as) (by simp))
            · split at hu
              · cases hu
              · cases es : c.super with
                | none => rw [es] at hu; cases hu
                | some s =>
                  rw [es] at hu
                  simp only [Option.bind_some] at hu
                  cases e : parse L s with
                  | none => rw [e] at hu; cases hu
                  | some x => rw [e] at hu; injection hu with hu; rw [← hu]; exact fqn_clean e
          · unfold at_ at hm
            obtain ⟨l, hl, rfl⟩ := List.mem_map.1 hm
            dsimp only
            rcases List.mem_append.1 hl with hl | hl
            · rcases List.mem_append.1 hl with hl | hl
              · obtain ⟨i, _, hi⟩ := List.mem_filterMap.1 hl
                cases e : parse L i with
                | none => rw [e] at hi; cases hi
                | some x => rw [e] at hi; injection hi with hi; subst hi; exact fqn_clean e
              · obtain ⟨f, _, l1, e1, hl⟩ := mem_fieldsLoop L _ _ ef l hl
                exact clean_field L f l1 e1 l hl
            · rcases mem_methodsLoop L _ _ _ _ em l hl with ⟨_, rfl⟩ | ⟨m, _, hs, l1, e1, hl⟩
              · trivial
              · exact clean_method L _ m hs l1 e1 l hl
          · trivial
          · exact hclose _ _ p hm
          · trivial
          · trivial
  clear h
  induction ls with
  | nil => rfl
  | cons p ls ih =>
    obtain ⟨i, l⟩ := p
    simp only [render, List.map_cons]
    rw [linesOf_cons, ih (fun q hq => hall q (List.mem_cons_of_mem _ hq))]
    simp only [List.mem_append, not_or]
    refine ⟨?_, text_clean l (hall _ List.mem_cons_self)⟩
    intro hm
    have := (List.mem_replicate.1 hm).2
    revert this; decide

/-! ### Types -/

/-- The type as YARD has it. -/
def yardOf (L : Letters) : Ty → Yard.YT
  | .byte | .char | .int | .long | .short => .name [['I', 'n', 't', 'e', 'g', 'e', 'r']]
  | .double | .float => .name [['F', 'l', 'o', 'a', 't']]
  | .boolean => .word .boolean
  | .void => .word .nil
  | .object name =>
    match parse L name with
    | some n => .name (parts n)
    | none => .name [tObject]
  | .array e => .array [yardOf L e]

theorem joinPath_eq : ∀ ts : List Text, Yard.joinPath ts = joinColons ts
  | [] => rfl
  | [t] => rfl
  | t :: u :: ts => by simp only [Yard.joinPath, joinColons, joinPath_eq (u :: ts)]

theorem ascii_constant (U : Yard.Unicode) (c : Char) (r : Text) (hc : c.toNat < 128 ∧ Yard.asciiUpper c = true)
    (hr : ∀ d ∈ r, d.toNat < 128 ∧ Yard.asciiWord d = true) : Yard.Constant U (c :: r) :=
  ⟨c, r, rfl, by rw [U.firstAscii c hc.1]; exact hc.2, fun d hd => by rw [U.contAscii d (hr d hd).1]; exact (hr d hd).2⟩

theorem yard_writes (L : Letters) (U : Yard.Unicode) : ∀ t : Ty, ConstantNames L U t → Yard.Writes U (yardOf L t) (rubyType L t)
  | .byte, _ | .char, _ | .int, _ | .long, _ | .short, _ => .name _ _ (by simp) (by
      intro p hp; rw [List.mem_singleton] at hp; subst hp; exact ascii_constant U _ _ (by decide) (by decide)) rfl
  | .double, _ | .float, _ => .name _ _ (by simp) (by
      intro p hp; rw [List.mem_singleton] at hp; subst hp; exact ascii_constant U _ _ (by decide) (by decide)) rfl
  | .boolean, _ => .word _ _ (by simp [rubyType, Yard.Word.spelled])
  | .void, _ => .word _ _ (by simp [rubyType, Yard.Word.spelled])
  | .object name, h => by
    unfold yardOf rubyType
    cases e : parse L name with
    | none =>
      exact .name _ _ (by simp) (by
        intro p hp; rw [List.mem_singleton] at hp; subst hp; exact ascii_constant U _ _ (by decide) (by decide)) rfl
    | some n => exact .name _ _ (by simp [parts]) (h n e) (joinPath_eq _).symm
  | .array t, h => by
    have ih := yard_writes L U t h
    have := Yard.Writes.array _ _ (Yard.WritesList.one (U := U) _ [] _ [] (fun c hc => by cases hc) ih (fun c hc => by cases hc))
    simpa [yardOf, rubyType] using this

theorem yard_plain (L : Letters) : ∀ t : Ty, (yardOf L t).plain
  | .byte | .char | .int | .long | .short => by unfold yardOf Yard.YT.plain; decide
  | .double | .float => by unfold yardOf Yard.YT.plain; decide
  | .boolean => by unfold yardOf Yard.YT.plain; exact fun e => by cases e
  | .void => by unfold yardOf Yard.YT.plain; exact fun e => by cases e
  | .object name => by
    unfold yardOf
    cases parse L name with
    | none => simp only; unfold Yard.YT.plain; decide
    | some n =>
      simp only
      unfold Yard.YT.plain
      intro k hk e
      have : ':' ∈ (Yard.joinPath (parts n)).map Yard.lower := by
        refine List.mem_map.2 ⟨':', ?_, by decide⟩
        rw [joinPath_eq]
        unfold parts
        simp [joinColons]
      rw [e] at this
      clear e
      revert hk this
      revert k
      decide
  | .array t => by
    have ih := yard_plain L t
    unfold yardOf Yard.YT.plain
    exact ⟨ih, trivial⟩

theorem yard_late (L : Letters) : ∀ t : Ty, (yardOf L t).lateArrow
  | .byte | .char | .int | .long | .short => trivial
  | .double | .float => trivial
  | .boolean => trivial
  | .void => trivial
  | .object name => by
    unfold yardOf
    cases parse L name <;> trivial
  | .array t => yard_late L t

theorem yard_means (L : Letters) : ∀ t : Ty, (yardOf L t).means = javaMeans L t
  | .byte | .char | .int | .long | .short => rfl
  | .double | .float => rfl
  | .boolean => rfl
  | .void => rfl
  | .object name => by
    unfold yardOf javaMeans
    cases parse L name with
    | none => rfl
    | some n =>
      simp only [Yard.YT.means, Yard.pathMeans]
      rw [if_neg (by simp [parts]), if_neg (by simp [parts])]
  | .array t => by
    simp only [yardOf, Yard.YT.means, Yard.listMeans, javaMeans, yard_means L t]

/-- **C84 (types).** The reader of YARD reads the text of a type as the Ruby type of the Java type, when its names are constants. -/
theorem c84_types (L : Letters) (U : Yard.Unicode) (t : Ty) (h : ConstantNames L U t) : Yard.typeOfTag U (rubyType L t) = javaMeans L t := by
  have hw : Yard.WritesList U [yardOf L t] (rubyType L t) := by
    have := Yard.WritesList.one (U := U) _ [] _ [] (fun c hc => by cases hc) (yard_writes L U t h) (fun c hc => by cases hc)
    simpa using this
  have hread : (yardOf L t).readable := by
    have := yard_late L t
    have hn : ∀ ks vs, yardOf L t ≠ .arrow ks vs := by
      intro ks vs
      cases t with
      | object name => unfold yardOf; cases parse L name <;> simp
      | _ => simp [yardOf]
    unfold Yard.YT.readable
    split
    · rename_i e; exact absurd e (hn _ _)
    · exact this
  rw [← yard_means L t]
  exact (Yard.c60_union U [yardOf L t] _ hw (fun u hu => by rw [List.mem_singleton] at hu; subst hu; exact ⟨hread, yard_plain L t⟩)).1 _ rfl

/-! ### Parameters -/

theorem argName_valid (L : Letters) (m : Method) (i : Nat) (hi : i < m.params.length) (h : validLocal L m.params[i] = true) :
    argName L m i = m.params[i] := by
  unfold argName
  rw [List.getElem?_eq_getElem hi]
  simp only [h, if_true]

/-- **C84 (parameters).** A method with different valid names for its parameters keeps them, all different. -/
theorem c84_distinct (L : Letters) (m : Method) (hv : ∀ p ∈ m.params, validLocal L p = true) (hd : m.params.Nodup) :
    (signature L m).Nodup ∧ (m.isVarargs = false → signature L m = m.params) := by
  constructor
  · unfold signature
    refine List.Pairwise.map (R := fun i j => i ≠ j ∧ i < m.params.length ∧ j < m.params.length) _ ?_ ?_
    · rintro i j ⟨hij, hi, hj⟩ e
      rw [argName_valid L m i hi (hv _ (List.getElem_mem hi)), argName_valid L m j hj (hv _ (List.getElem_mem hj))] at e
      have ni := validLocal_notin (hv _ (List.getElem_mem hi)) '*' (by decide)
      have nj := validLocal_notin (hv _ (List.getElem_mem hj)) '*' (by decide)
      have inj : m.params[i] = m.params[j] → i = j := fun h => (List.getElem_inj hd).1 h
      split at e
      · split at e
        · omega
        · exact nj (by rw [show m.params[j] = _ from e.symm]; simp)
      · split at e
        · exact ni (by rw [show m.params[i] = _ from e]; simp)
        · exact hij (inj e)
    · have := List.nodup_range (n := m.params.length)
      refine List.Pairwise.imp_of_mem ?_ this
      intro a b ha hb hab
      exact ⟨hab, List.mem_range.1 ha, List.mem_range.1 hb⟩
  · intro hva
    unfold signature
    apply List.ext_getElem
    · simp
    · intro i h1 h2
      simp only [List.getElem_map, List.getElem_range, hva, Bool.false_eq_true, false_and, if_false, List.nil_append]
      exact argName_valid L m i h2 (hv _ (List.getElem_mem h2))

/-- **C84 (documented parameters).** When the class file has as many parameters as the descriptor, the documented names are the names of the
definition, in the same order. -/
theorem c84_documented (L : Letters) (path : List Text) (m : Method) (ps : List Ty) (r : Ty) (hd : m.descriptor = some (ps, r))
    (hl : ps.length = m.params.length) :
    ∃ s n qs d k, methodEvent L path m = [.method path s n qs d k] ∧ d.params.map Prod.fst = qs.map (fun q => q.dropWhile (fun c => c == '*')) ∧
      d.params.map Prod.snd = ps.map (rubyType L) := by
  unfold methodEvent
  rw [hd]
  refine ⟨_, _, _, _, _, rfl, ?_, ?_⟩
  · unfold signature
    apply List.ext_getElem
    · simp [hl]
    · intro i h1 h2
      simp only [List.getElem_map, List.getElem_zipIdx, List.getElem_range, Nat.zero_add]
      have hn := argName_notin L m i '*' (by decide)
      have hdrop : (argName L m i).dropWhile (fun c => c == '*') = argName L m i := by
        cases e : argName L m i with
        | nil => rfl
        | cons c cs =>
          rw [List.dropWhile_cons_of_neg]
          rw [e] at hn
          intro h
          exact hn (by rw [← (beq_iff_eq.1 h)]; exact List.mem_cons_self)
      split
      · rw [List.singleton_append, List.dropWhile_cons_of_pos (by rfl), hdrop]
      · rw [List.nil_append, hdrop]
  · apply List.ext_getElem
    · simp
    · intro i h1 h2
      simp

/-! ### Examples and counterexamples -/

/-- Letters and digits of ASCII only. -/
def ascii : Letters := { alpha := Char.isAlpha, alnum := Char.isAlphanum, lower := Char.isLower, upper := Char.isUpper, plain := by decide }

def iteratorMethod (name : String) : Method := { name := name.toList, descriptor := some ([], .boolean), params := [], isStatic := false, isVarargs := false, isAbstract := true, isNative := false, vis := .public_, exceptions := [] }

def addMethod : Method := { name := "add".toList, descriptor := some ([.int, .array (.object "java/lang/String".toList)], .void), params := ["index".toList, "rest".toList], isStatic := false, isVarargs := true, isAbstract := false, isNative := false, vis := .protected_, exceptions := ["java/io/IOException".toList] }

def initMethod : Method := { name := tInit, descriptor := some ([], .void), params := [], isStatic := false, isVarargs := false, isAbstract := false, isNative := false, vis := .private_, exceptions := [] }

def sizeField : FieldInfo := { name := "size".toList, ty := some .int, isStatic := false, isFinal := true, isEnum := false, vis := .private_ }

def maxField : FieldInfo := { name := "MAX".toList, ty := some .long, isStatic := true, isFinal := true, isEnum := false, vis := .public_ }

def outField : FieldInfo := { name := "out".toList, ty := some (.object "java/io/PrintStream".toList), isStatic := true, isFinal := true, isEnum := false, vis := .public_ }

def sample : ClassFile := { name := "java/util/Box$Part".toList, kind := .class_, super := some "java/lang/Object".toList, interfaces := ["java/util/List".toList], fields := [maxField], methods := [addMethod, initMethod, iteratorMethod "hasNext"] }

/-- The text for a class with a constant, a protected method with a rest parameter, a constructor and a public method. -/
theorem c84_example : (generate ascii sample).map (fun ls => (linesOf (render ls)).map String.ofList) = some
    ["# Generated from JVM metadata for java/util/Box$Part. Method bodies are intentionally unavailable.",
      "module Java",
      "  module JavaUtil",
      "    class Box",
      "      class Part < Java::JavaLang::Object",
      "        include Java::JavaUtil::List",
      "        # @ruby_fast_lsp_navigation declaration-only: JVM fields and enum constants have no executable implementation body.",
      "        # @type [Integer]",
      "        MAX = nil",
      "        protected",
      "        # @param index [Integer]",
      "        # @param rest [Array<Java::JavaLang::String>]",
      "        # @return [nil]",
      "        # @raise [Java::JavaIo::IOException]",
      "        # @ruby_fast_lsp_navigation declaration-only: no verified exact-source or bounded-decompiler member range was available.",
      "        def add(index, *rest); end",
      "        private",
      "        # @return [nil]",
      "        # @ruby_fast_lsp_navigation declaration-only: no verified exact-source or bounded-decompiler member range was available.",
      "        def self.new(); end",
      "        public",
      "        # @return [Boolean]",
      "        # @ruby_fast_lsp_navigation declaration-only: abstract JVM method has no implementation body.",
      "        def hasNext(); end",
      "      end",
      "    end",
      "  end",
      "end"] := by decide +kernel

/-- Two classes of Java can have one name in Ruby: the words of packages run together. -/
theorem c84_collide_fails : ¬ ∀ (L : Letters) (a b : Text) (n m : Name), parse L a = some n → parse L b = some m → fqn n = fqn m →
    slashed a = slashed b := by
  intro h
  have := h ascii "foo/barBaz/C".toList "fooBar/baz/C".toList ⟨["foo".toList, "barBaz".toList], ["C".toList]⟩
    ⟨["fooBar".toList, "baz".toList], ["C".toList]⟩ (by decide +kernel) (by decide +kernel) (by decide +kernel)
  revert this
  decide +kernel

/-- Different parameters can get one name: `arg1` is both the name given and the name made for a keyword. -/
theorem c84_distinct_fails : ¬ ∀ (L : Letters) (m : Method), m.params.Nodup → (signature L m).Nodup := by
  intro h
  have := h ascii { addMethod with params := ["arg1".toList, "end".toList], isVarargs := false } (by decide +kernel)
  revert this
  decide +kernel

/-- A private constructor can be called: `private` does nothing to `def self.new`. -/
theorem c84_private_fails : ¬ ∀ (L : Letters) (path : List Text) (m : Method), m.vis = .private_ →
    ∀ p s n ps d k, Event.method p s n ps d k ∈ methodEvent L path m → k = .private_ := by
  intro h
  have := h ascii [] initMethod rfl [] true tNew [] { returns := some ['n', 'i', 'l'] } .public_ (by decide +kernel)
  cases this

/-- The constructor of a class is documented to return `nil`. -/
theorem c84_constructor_fails : ¬ ∀ (L : Letters) (path : List Text) (m : Method), m.name = tInit →
    ∀ p s n ps d k, Event.method p s n ps d k ∈ methodEvent L path m → d.returns ≠ some ['n', 'i', 'l'] := by
  intro h
  exact h ascii [] initMethod rfl [] true tNew [] { returns := some ['n', 'i', 'l'] } .public_ (by decide +kernel) rfl

/-- One path is a module in one file and a class in another: an interface around a class is opened as a class. -/
theorem c84_outer_fails : ¬ ∀ (L : Letters) (c d : ClassFile) (n m : Name), parse L c.name = some n → parse L d.name = some m →
    ∀ p s t, Event.opened p true s ∈ declared L c n → Event.opened p false t ∈ declared L d m → False := by
  intro h
  refine h ascii { sample with name := "java/util/Map".toList, kind := .interface_, fields := [], methods := [], interfaces := [] }
    { sample with name := "java/util/Map$Entry".toList, kind := .interface_, fields := [], methods := [], interfaces := [] }
    ⟨["java".toList, "util".toList], ["Map".toList]⟩ ⟨["java".toList, "util".toList], ["Map".toList, "Entry".toList]⟩
    (by decide +kernel) (by decide +kernel) ["Java".toList, "JavaUtil".toList, "Map".toList] none none ?_ ?_ <;> decide +kernel

/-- A public method can be missing: `next` of an iterator is a keyword of Ruby, though Ruby has such methods. -/
theorem c84_keyword_fails : ¬ ∀ (L : Letters) (m : Method), m.vis = .public_ → m.name ≠ tClinit → Shown L m := by
  intro h
  have := h ascii (iteratorMethod "next") rfl (by decide +kernel)
  revert this
  decide +kernel

/-- A public field can be missing: `out` of `System` is static and final, but no constant of Ruby. -/
theorem c84_field_fails : ¬ ∀ (L : Letters) (path : List Text) (f : FieldInfo), f.vis = .public_ → f.ty.isSome = true → fieldEvents L path f ≠ [] := by
  intro h
  exact h ascii [] outField rfl rfl (by decide +kernel)

/-- A private final field has a public writer. -/
theorem c84_writer_fails : ¬ ∀ (L : Letters) (path : List Text) (f : FieldInfo), f.isFinal = true → f.vis = .private_ →
    ∀ p s ps d, Event.method p s (f.name ++ ['=']) ps d .public_ ∉ fieldEvents L path f := by
  intro h
  exact h ascii [] sizeField rfl rfl [] false [tValue] { params := [(tValue, "Integer".toList)] } (by decide +kernel)

/-- A class can have a name that is no constant of Ruby, and is opened all the same. -/
theorem c84_constant_fails : ¬ ∀ (L : Letters) (s : Text) (n : Name), parse L s = some n → ∀ p ∈ parts n, validConstant L p = true := by
  intro h
  have := h ascii "a/b".toList ⟨["a".toList], ["b".toList]⟩ (by decide +kernel) "b".toList (by decide +kernel)
  revert this
  decide +kernel

/-- A class without a package has no declarations. -/
theorem c84_package_fails : ¬ ∀ (L : Letters) (s : Text), Ident L s → (parse L s).isSome = true := by
  intro h
  have := h ascii "Main".toList ((validIdent_iff _ _).1 (by decide +kernel))
  revert this
  decide +kernel

/-- A class whose name ends with a dollar, or has a number after one, has no declarations though Java allows it. -/
theorem c84_dollar_fails : ¬ ∀ (L : Letters) (p k : Text), Ident L p → Ident L k → (parse L (p ++ '/' :: k)).isSome = true := by
  intro h
  have := h ascii "a".toList "Foo$1".toList ((validIdent_iff _ _).1 (by decide +kernel)) ((validIdent_iff _ _).1 (by decide +kernel))
  revert this
  decide +kernel

/-- The exceptions of a method can be an empty list though it has some. -/
theorem c84_raise_fails : ¬ ∀ (L : Letters) (path : List Text) (m : Method), ∀ p s n ps d k, Event.method p s n ps d k ∈ methodEvent L path m →
    d.raises ≠ some [] := by
  intro h
  exact h ascii [] { initMethod with exceptions := ["Oops".toList] } [] true tNew [] { returns := some ['n', 'i', 'l'], raises := some [] } .public_
    (by decide +kernel) rfl

/-- The hypotheses of the theorems hold for the sample. -/
example : (generate ascii sample).isSome = true := by decide +kernel
example : Shown ascii addMethod ∧ (∀ p ∈ addMethod.params, validLocal ascii p = true) ∧ addMethod.params.Nodup := by decide +kernel
example : rubyType ascii (.array (.object "java/util/Map$Entry".toList)) = "Array<Java::JavaUtil::Map::Entry>".toList := by decide +kernel

end Verif.JrubySignatures
