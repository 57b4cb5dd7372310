import Verif.Spec.JrubySignatures
import Verif.Props.JavaSource
/-!
Reading the generated lines.
-/
namespace Verif.JrubySignatures
open Verif.JavaSource (Text Ty joinWith)

theorem run_append (r : Reader) (a b : List Line) : r.run (a ++ b) = (r.run a).bind (fun r' => r'.run b) := by
  induction a generalizing r with
  | nil => rfl
  | cons l ls ih =>
    simp only [List.cons_append, Reader.run]
    cases r.step l with
    | none => rfl
    | some r' => exact ih r'

theorem run_of {r r' : Reader} {a : List Line} (h : r.run a = some r') (b : List Line) : r.run (a ++ b) = r'.run b := by
  rw [run_append, h]; rfl

theorem paramName_argName (L : Letters) (m : Method) (i : Nat) :
    docName L m.params i = argName L m i := by
  unfold docName argName paramName
  cases m.params[i]? <;> rfl

theorem run_docParams (L : Letters) (m : Method) (ts : List Ty) : ∀ (i : Nat) (sc : List (Text × Keyword)) (d : Docs) (es : List Event),
    Reader.run ⟨sc, d, es⟩ (docParams L m.params i ts) =
      some ⟨sc, { d with params := d.params ++ (ts.zipIdx i).map (fun p => (argName L m p.2, rubyType L p.1)) }, es⟩ := by
  induction ts with
  | nil => intro i sc d es; simp [docParams, Reader.run]
  | cons t ts ih =>
    intro i sc d es
    simp only [docParams, Reader.run, Reader.step, Option.bind_some]
    rw [ih, paramName_argName]
    simp

theorem raises_eq (L : Letters) (ns : List Text) : ns.filterMap (fun e => (parse L e).map fqn) = rubyNames L ns := by
  unfold rubyNames
  induction ns with
  | nil => rfl
  | cons n ns ih =>
    simp only [List.filterMap_cons]
    cases parse L n with
    | none => simpa using ih
    | some x => simpa using ih

theorem run_docLines (L : Letters) (m : Method) (ps : List Ty) (t : Ty) (sc : List (Text × Keyword)) (es : List Event) :
    Reader.run ⟨sc, {}, es⟩ (docLines L m ps t) =
      some ⟨sc, { params := ps.zipIdx.map (fun p => (argName L m p.2, rubyType L p.1)), returns := some (rubyType L t), raises := if m.exceptions = [] then none else some (rubyNames L m.exceptions) }, es⟩ := by
  unfold docLines
  rw [run_of (run_docParams L m ps 0 sc {} es)]
  cases e : m.exceptions with
  | nil => simp [Reader.run, Reader.step]
  | cons x xs => simp [Reader.run, Reader.step, ← raises_eq]

theorem defParams_eq (L : Letters) (m : Method) : defParams L m = signature L m := by
  unfold defParams signature
  apply List.ext_getElem
  · simp
  · intro i h1 h2
    simp only [List.length_map, List.length_zipIdx] at h1
    simp only [List.getElem_map, List.getElem_zipIdx, List.getElem_range, Nat.zero_add]
    have e : paramName L m.params[i] i = argName L m i := by
      rw [← paramName_argName]; unfold docName; rw [List.getElem?_eq_getElem h1]
    by_cases h : m.isVarargs = true ∧ i + 1 = m.params.length
    · rw [if_pos h, if_pos (by simp [h.1, h.2]), e]; rfl
    · rw [if_neg h, if_neg (by simpa using h), e]; rfl

/-- One method. -/
theorem run_methodLines (L : Letters) (k : Kind) (m : Method) (ls : List Line) (h : methodLines L k m = some ls)
    (n : Text) (sc : List (Text × Keyword)) (es : List Event) :
    Reader.run ⟨(n, keyword m.vis) :: sc, {}, es⟩ ls =
      some ⟨(n, keyword m.vis) :: sc, {}, es ++ methodEvent L (((n, keyword m.vis) :: sc).map Prod.fst).reverse m⟩ := by
  unfold methodLines at h
  unfold methodEvent
  cases e : m.descriptor with
  | none => rw [e] at h; cases h
  | some d =>
    obtain ⟨ps, t⟩ := d
    rw [e] at h
    injection h with h
    rw [← h, run_of (run_docLines L m ps t _ es)]
    simp [Reader.run, Reader.step, Reader.path, Reader.visibility, defParams_eq]

theorem run_methodsLoop (L : Letters) (k : Kind) (n : Text) (sc : List (Text × Keyword)) : ∀ (ms : List Method) (cur : Vis) (ls : List Line),
    methodsLoop L k cur ms = some ls → ∀ es, ∃ kw,
    Reader.run ⟨(n, keyword cur) :: sc, {}, es⟩ ls = some ⟨(n, kw) :: sc, {}, es ++
      (ms.filter (fun m => decide (Shown L m))).flatMap (methodEvent L (n :: sc.map Prod.fst).reverse)⟩ := by
  intro ms
  induction ms with
  | nil =>
    intro cur ls h es
    simp only [methodsLoop, Option.some.injEq] at h
    subst h
    exact ⟨keyword cur, by simp [Reader.run]⟩
  | cons m ms ih =>
    intro cur ls h es
    simp only [methodsLoop] at h
    by_cases h1 : m.name = tClinit
    · rw [if_pos h1] at h
      rw [List.filter_cons_of_neg (by simp [Shown, h1])]
      exact ih cur ls h es
    · rw [if_neg h1] at h
      cases h2 : validMethod L (methodName m) with
      | false =>
        rw [h2] at h
        rw [List.filter_cons_of_neg (by simp [Shown, h2])]
        exact ih cur ls h es
      | true =>
        rw [h2] at h
        simp only [Bool.not_true, Bool.false_eq_true, if_false] at h
        rw [List.filter_cons_of_pos (by simp [Shown, h1, h2]), List.flatMap_cons]
        cases e1 : methodLines L k m with
        | none => rw [e1] at h; cases h
        | some l1 =>
          rw [e1] at h
          simp only at h
          cases e2 : methodsLoop L k m.vis ms with
          | none => rw [e2] at h; cases h
          | some l2 =>
            rw [e2] at h
            simp only [Option.some.injEq] at h
            subst h
            obtain ⟨kw, hk⟩ := ih m.vis l2 e2 (es ++ methodEvent L (n :: sc.map Prod.fst).reverse m)
            refine ⟨kw, ?_⟩
            have hs : Reader.run ⟨(n, keyword cur) :: sc, {}, es⟩ (if m.vis ≠ cur then [Line.vis (keyword m.vis)] else []) =
                some ⟨(n, keyword m.vis) :: sc, {}, es⟩ := by
              by_cases hv : m.vis = cur
              · rw [if_neg (by simpa using hv), hv]; rfl
              · rw [if_pos hv]; rfl
            rw [List.append_assoc, run_of hs, run_of (run_methodLines L k m l1 e1 n sc es)]
            simp only [List.map_cons] at hk ⊢
            rw [hk, List.append_assoc]

theorem run_fieldsLoop (L : Letters) (n : Text) (sc : List (Text × Keyword)) : ∀ (fs : List FieldInfo) (ls : List Line),
    fieldsLoop L fs = some ls → ∀ es, Reader.run ⟨(n, .public_) :: sc, {}, es⟩ ls =
      some ⟨(n, .public_) :: sc, {}, es ++ fs.flatMap (fieldEvents L (n :: sc.map Prod.fst).reverse)⟩ := by
  intro fs
  induction fs with
  | nil =>
    intro ls h es
    simp only [fieldsLoop, Option.some.injEq] at h
    subst h
    simp [Reader.run]
  | cons f fs ih =>
    intro ls h es
    simp only [fieldsLoop] at h
    cases e1 : fieldLines L f with
    | none => rw [e1] at h; cases h
    | some l1 =>
      rw [e1] at h
      simp only at h
      cases e2 : fieldsLoop L fs with
      | none => rw [e2] at h; cases h
      | some l2 =>
        rw [e2] at h
        simp only [Option.some.injEq] at h
        subst h
        have h1 : Reader.run ⟨(n, .public_) :: sc, {}, es⟩ l1 =
            some ⟨(n, .public_) :: sc, {}, es ++ fieldEvents L (n :: sc.map Prod.fst).reverse f⟩ := by
          unfold fieldLines at e1
          unfold fieldEvents
          cases et : f.ty with
          | none => rw [et] at e1; cases e1
          | some ty =>
            rw [et] at e1
            simp only at e1 ⊢
            by_cases hc : f.isStatic = true ∧ (f.isFinal = true ∨ f.isEnum = true)
            · rw [if_pos (by simpa using hc)] at e1
              rw [if_pos hc]
              split at e1
              · rename_i hv
                injection e1 with e1
                rw [if_pos hv, ← e1]
                simp [Reader.run, Reader.step, Reader.path]
              · rename_i hv
                injection e1 with e1
                rw [if_neg hv, ← e1]
                simp [Reader.run]
            · rw [if_neg (by simpa using hc)] at e1
              rw [if_neg hc]
              split at e1
              · rename_i hv
                injection e1 with e1
                rw [if_pos hv, ← e1]
                simp [Reader.run, Reader.step, Reader.path, Reader.visibility]
              · rename_i hv
                injection e1 with e1
                rw [if_neg hv, ← e1]
                simp [Reader.run]
        rw [run_of h1, ih l2 e2, List.flatMap_cons, List.append_assoc]

theorem run_includes (L : Letters) (n : Text) (sc : List (Text × Keyword)) : ∀ (is : List Text) (es : List Event),
    Reader.run ⟨(n, .public_) :: sc, {}, es⟩ (is.filterMap (fun i => (parse L i).map (fun n => Line.include_ (fqn n)))) =
      some ⟨(n, .public_) :: sc, {}, es ++ (rubyNames L is).map (.included (n :: sc.map Prod.fst).reverse)⟩ := by
  intro is
  unfold rubyNames
  induction is with
  | nil => intro es; simp [Reader.run]
  | cons i is ih =>
    intro es
    simp only [List.filterMap_cons]
    cases parse L i with
    | none => simpa using ih es
    | some x =>
      simp only [Option.map_some, Reader.run, Reader.step, Option.bind_some, List.map_cons]
      rw [ih]
      simp [Reader.path]

/-- The scopes that are open after the classes around. -/
def scopesOf (ts : List Text) : List (Text × Keyword) := (ts.map (fun t => (t, Keyword.public_))).reverse

theorem run_outerOpen : ∀ (ts : List Text) (i : Nat) (sc : List (Text × Keyword)) (es : List Event),
    Reader.run ⟨sc, {}, es⟩ ((outerOpen i ts).map Prod.snd) =
      some ⟨scopesOf ts ++ sc, {}, es ++ outerEvents (sc.map Prod.fst).reverse ts⟩ := by
  intro ts
  induction ts with
  | nil => intro i sc es; simp [outerOpen, Reader.run, scopesOf, outerEvents]
  | cons t ts ih =>
    intro i sc es
    simp only [outerOpen, List.map_cons, Reader.run, Reader.step, Option.bind_some]
    rw [ih]
    simp [scopesOf, outerEvents, Reader.path]

theorem run_outerClose : ∀ (ts : List Text) (i : Nat) (top sc : List (Text × Keyword)) (es : List Event), top.length = ts.length →
    Reader.run ⟨top ++ sc, {}, es⟩ ((outerClose i ts).map Prod.snd) = some ⟨sc, {}, es⟩ := by
  intro ts
  induction ts with
  | nil =>
    intro i top sc es h
    have : top = [] := List.length_eq_zero_iff.1 h
    subst this
    rfl
  | cons t ts ih =>
    intro i top sc es h
    cases top with
    | nil => cases h
    | cons x top =>
      simp only [outerClose, List.map_cons, Reader.run, Reader.step, List.cons_append, Option.bind_some]
      exact ih _ top sc es (by simpa using h)

/-! ### Splitting -/

theorem splitSlash_ne (t : Text) : splitSlash t ≠ [] := by
  cases t with
  | nil => simp [splitSlash]
  | cons c cs =>
    simp only [splitSlash]
    split
    · simp
    · split <;> simp

theorem splitSlash_join : ∀ t : Text, joinWith '/' (splitSlash t) = t
  | [] => rfl
  | c :: cs => by
    have ih := splitSlash_join cs
    simp only [splitSlash]
    split
    · rename_i h
      cases e : splitSlash cs with
      | nil => exact absurd e (splitSlash_ne cs)
      | cons s ss => rw [e] at ih; simp only [joinWith, ih, h, List.nil_append]
    · cases e : splitSlash cs with
      | nil => exact absurd e (splitSlash_ne cs)
      | cons s ss =>
        rw [e] at ih
        cases ss with
        | nil => simp only [joinWith] at ih ⊢; rw [ih]
        | cons u us => simp only [joinWith, List.cons_append] at ih ⊢; rw [ih]

theorem splitSlash_parts : ∀ (t : Text), ∀ p ∈ splitSlash t, '/' ∉ p ∧ ∀ c ∈ p, c ∈ t
  | [], p, h => by
    simp only [splitSlash, List.mem_singleton] at h
    subst h
    simp
  | c :: cs, p, h => by
    have ih := splitSlash_parts cs
    simp only [splitSlash] at h
    split at h
    · rcases List.mem_cons.1 h with rfl | h
      · simp
      · exact ⟨(ih p h).1, fun x hx => List.mem_cons_of_mem _ ((ih p h).2 x hx)⟩
    · rename_i hc
      cases e : splitSlash cs with
      | nil => exact absurd e (splitSlash_ne cs)
      | cons s ss =>
        rw [e] at h ih
        rcases List.mem_cons.1 h with rfl | h
        · have := ih s List.mem_cons_self
          refine ⟨?_, fun x hx => ?_⟩
          · intro hm
            rcases List.mem_cons.1 hm with hm | hm
            · exact hc hm.symm
            · exact this.1 hm
          · rcases List.mem_cons.1 hx with rfl | hx
            · exact List.mem_cons_self
            · exact List.mem_cons_of_mem _ (this.2 x hx)
        · have := ih p (List.mem_cons_of_mem _ h)
          exact ⟨this.1, fun x hx => List.mem_cons_of_mem _ (this.2 x hx)⟩

theorem splitSlash_plain : ∀ t : Text, '/' ∉ t → splitSlash t = [t]
  | [], _ => rfl
  | c :: cs, h => by
    have hc : c ≠ '/' := fun e => h (by rw [e]; exact List.mem_cons_self)
    simp only [splitSlash, if_neg hc, splitSlash_plain cs (fun e => h (List.mem_cons_of_mem _ e))]

theorem splitSlash_cons : ∀ (t u : Text), '/' ∉ t → splitSlash (t ++ '/' :: u) = t :: splitSlash u
  | [], u, _ => by simp only [List.nil_append, splitSlash, if_true]
  | c :: cs, u, h => by
    have hc : c ≠ '/' := fun e => h (by rw [e]; exact List.mem_cons_self)
    have ih := splitSlash_cons cs u (fun e => h (List.mem_cons_of_mem _ e))
    simp only [List.cons_append, splitSlash, if_neg hc, ih]

theorem splitSlash_of_join : ∀ cs : List Text, cs ≠ [] → (∀ p ∈ cs, '/' ∉ p) → splitSlash (joinWith '/' cs) = cs
  | [], h, _ => absurd rfl h
  | [t], _, h => splitSlash_plain t (h t List.mem_cons_self)
  | t :: u :: ts, _, h => by
    simp only [joinWith]
    rw [splitSlash_cons _ _ (h t List.mem_cons_self),
      splitSlash_of_join (u :: ts) (by simp) (fun p hp => h p (List.mem_cons_of_mem _ hp))]

end Verif.JrubySignatures
