import Verif.Spec.Arity

namespace Verif.Arity

/-- What the summary of the arguments says about their values. -/
structure SigOK (lit : Prop) (s : Sig) (vs : List Val) (ks : List Key) : Prop where
  pos : s.positional ≤ vs.length
  posEq : s.positionalSplat = false → s.positional = vs.length
  kw : ∀ n ∈ s.keywordArgs, Key.sym n ∈ ks
  nonempty : s.nonemptyKeywords = true → ks ≠ []
  empty : s.nonemptyKeywords = false → s.keywordSplat = false → s.positionalSplat = false → ks = []
  trailing : s.trailingHash = false → vs.length = s.positional → ∀ init keys, vs ≠ init ++ [.hash keys]
  trail0 : s.trailingHash = true → 0 < s.positional
  lits : lit → s.keywordSplat = false → s.positionalSplat = false → ∀ k ∈ ks, ∃ n ∈ s.keywordArgs, k = .sym n

theorem SigOK.start (lit : Prop) : SigOK lit {} [] [] := by
  constructor <;> simp

theorem SigOK.elem {lit : Prop} {s : Sig} {vs : List Val} {ks : List Key} (h : SigOK lit s vs ks) {e : Elem} {k : List Key}
    (he : ElemKeys e k) (hl : lit → e ≠ .dynamic) : SigOK lit (s.addElem e) vs (ks ++ k) := by
  obtain ⟨h1, h2, h3, h4, h5, h6, h7, h8⟩ := h
  cases he with
  | sym =>
    refine ⟨h1, h2, ?_, by simp [Sig.addElem], by simp [Sig.addElem], h6, h7, ?_⟩
    · intro n hn
      simp only [Sig.addElem, List.mem_append, List.mem_singleton] at hn
      rcases hn with hn | hn
      · exact List.mem_append_left _ (h3 n hn)
      · subst hn; simp
    · intro l a b k hk
      simp only [List.mem_append, List.mem_singleton] at hk
      rcases hk with hk | hk
      · obtain ⟨n, hn, e⟩ := h8 l a b k hk
        exact ⟨n, by simp [Sig.addElem, hn], e⟩
      · exact ⟨_, by simp [Sig.addElem], hk⟩
  | dynamic =>
    refine ⟨h1, h2, ?_, by simp [Sig.addElem], by simp [Sig.addElem], h6, h7, fun l => absurd rfl (hl l)⟩
    intro n hn
    exact List.mem_append_left _ (h3 n hn)
  | splat =>
    refine ⟨h1, h2, ?_, ?_, by simp [Sig.addElem], h6, h7, by simp [Sig.addElem]⟩
    · intro n hn
      exact List.mem_append_left _ (h3 n hn)
    · intro a
      have := h4 a
      simp [this]

theorem SigOK.elems {lit : Prop} {es : List Elem} {k : List Key} (he : ElemsKeys es k) :
    ∀ {s : Sig} {vs : List Val} {ks : List Key}, SigOK lit s vs ks → (lit → ∀ e ∈ es, e ≠ .dynamic) →
      SigOK lit (es.foldl Sig.addElem s) vs (ks ++ k) := by
  induction he with
  | nil => intro s vs ks h _; simpa using h
  | cons h1 _ ih =>
    intro s vs ks h hl
    rw [← List.append_assoc]
    exact ih (h.elem h1 (fun l => hl l _ (List.mem_cons_self ..))) (fun l e he => hl l e (List.mem_cons_of_mem _ he))

theorem SigOK.arg {lit : Prop} {s : Sig} {vs : List Val} {ks : List Key} (h : SigOK lit s vs ks) {a : Arg} {v : List Val}
    {k : List Key} (ha : ArgVals a v k) (hl : lit → Literal a) : SigOK lit (s.addArg a) (vs ++ v) (ks ++ k) := by
  cases ha with
  | @plain hh v hv =>
    obtain ⟨h1, h2, h3, h4, h5, h6, h7, h8⟩ := h
    refine ⟨?_, ?_, by simpa [Sig.addArg] using h3, by simpa [Sig.addArg] using h4, by simpa [Sig.addArg] using h5, ?_, by simp [Sig.addArg],
      by simpa [Sig.addArg] using h8⟩
    · simpa [Sig.addArg] using h1
    · intro hs; simpa [Sig.addArg] using h2 hs
    · intro ht _ init keys e
      have e2 : [v] = [Val.hash keys] := (List.append_inj' e rfl).2
      have := hv keys (by simpa using e2)
      simp [Sig.addArg, this] at ht
  | splat =>
    obtain ⟨h1, h2, h3, h4, h5, h6, h7, h8⟩ := h
    refine ⟨by simp [Sig.addArg]; omega, by simp [Sig.addArg], ?_, ?_, by simp [Sig.addArg], ?_, h7, by simp [Sig.addArg]⟩
    · intro n hn; exact List.mem_append_left _ (h3 n hn)
    · intro a; simp [h4 a]
    · intro ht hlen init keys
      cases v with
      | nil => simp only [List.append_nil] at hlen ⊢; exact h6 ht hlen init keys
      | cons x v => simp [Sig.addArg] at hlen; omega
  | forwarding =>
    obtain ⟨h1, h2, h3, h4, h5, h6, h7, h8⟩ := h
    refine ⟨by simp [Sig.addArg]; omega, by simp [Sig.addArg], ?_, ?_, by simp [Sig.addArg], ?_, h7, by simp [Sig.addArg]⟩
    · intro n hn; exact List.mem_append_left _ (h3 n hn)
    · intro a; simp [h4 a]
    · intro ht hlen init keys
      cases v with
      | nil => simp only [List.append_nil] at hlen ⊢; exact h6 ht hlen init keys
      | cons x v => simp [Sig.addArg] at hlen; omega
  | keywords he => simpa [Sig.addArg] using SigOK.elems he h (fun l => hl l _ rfl)
  | blockArg => simpa [Sig.addArg] using h

theorem SigOK.args {lit : Prop} {args : List Arg} {v : List Val} {k : List Key} (ha : CallVals args v k) :
    ∀ {s : Sig} {vs : List Val} {ks : List Key}, SigOK lit s vs ks → (lit → ∀ a ∈ args, Literal a) →
      SigOK lit (args.foldl Sig.addArg s) (vs ++ v) (ks ++ k) := by
  induction ha with
  | nil => intro s vs ks h _; simpa using h
  | cons h1 _ ih =>
    intro s vs ks h hl
    rw [← List.append_assoc, ← List.append_assoc]
    exact ih (h.arg h1 (fun l => hl l _ (List.mem_cons_self ..))) (fun l e he => hl l e (List.mem_cons_of_mem _ he))

theorem signature_ok {lit : Prop} {args : List Arg} {skip : Nat} {vs : List Val} {ks : List Key}
    (h : CallVals (args.drop skip) vs ks) (hl : lit → ∀ a ∈ args, Literal a) : SigOK lit (signature args skip) vs ks := by
  have := SigOK.args (lit := lit) h (SigOK.start lit) (fun l a ha => hl l a (List.mem_of_mem_drop ha))
  simpa [signature] using this

theorem written_elems (es : List Elem) : ∀ (s : Sig), (∀ e ∈ es, ∃ n, e = Elem.sym n) →
    (es.foldl Sig.addElem s).keywordSplat = s.keywordSplat ∧ (es.foldl Sig.addElem s).positionalSplat = s.positionalSplat ∧
    (es.foldl Sig.addElem s).trailingHash = s.trailingHash := by
  induction es with
  | nil => intro s _; exact ⟨rfl, rfl, rfl⟩
  | cons e es ih =>
    intro s h
    obtain ⟨n, rfl⟩ := h e (List.mem_cons_self ..)
    exact ih _ (fun e he => h e (List.mem_cons_of_mem _ he))

theorem written_args (args : List Arg) : ∀ (s : Sig), (∀ a ∈ args, Written a) →
    (args.foldl Sig.addArg s).keywordSplat = s.keywordSplat ∧ (args.foldl Sig.addArg s).positionalSplat = s.positionalSplat ∧
    (s.trailingHash = false → (∀ h, Arg.plain h ∈ args → h = false) → (args.foldl Sig.addArg s).trailingHash = false) := by
  induction args with
  | nil => intro s _; exact ⟨rfl, rfl, fun h _ => h⟩
  | cons a args ih =>
    intro s h
    have ha := h a (List.mem_cons_self ..)
    obtain ⟨i1, i2, i3⟩ := ih (s.addArg a) (fun a ha => h a (List.mem_cons_of_mem _ ha))
    rw [List.foldl_cons, i1, i2]
    have i3' := fun h1 (h2 : ∀ h, Arg.plain h ∈ a :: args → h = false) => i3 h1 (fun x hx => h2 x (List.mem_cons_of_mem _ hx))
    cases a with
    | splat => exact absurd rfl ha.1
    | forwarding => exact absurd rfl ha.2.1
    | blockArg => exact ⟨rfl, rfl, i3'⟩
    | plain b => exact ⟨rfl, rfl, fun _ h2 => i3' (h2 b (List.mem_cons_self ..)) h2⟩
    | keywords es =>
      obtain ⟨j1, j2, j3⟩ := written_elems es s (ha.2.2 es rfl)
      exact ⟨j1, j2, fun h1 h2 => i3' (by rw [Sig.addArg, j3, h1]) h2⟩

/-- The values of the arguments in some run. -/
theorem callVals_exists : ∀ args : List Arg, ∃ vs ks, CallVals args vs ks := by
  have he : ∀ es : List Elem, ∃ ks, ElemsKeys es ks := by
    intro es
    induction es with
    | nil => exact ⟨_, .nil⟩
    | cons e l ih =>
      obtain ⟨ks, h⟩ := ih
      cases e with
      | sym n => exact ⟨_, .cons .sym h⟩
      | dynamic => exact ⟨_, .cons (.dynamic (k := .sym 0)) h⟩
      | splat => exact ⟨_, .cons (.splat (ks := [])) h⟩
  intro args
  induction args with
  | nil => exact ⟨_, _, .nil⟩
  | cons a l ih =>
    obtain ⟨vs, ks, h⟩ := ih
    cases a with
    | plain b => exact ⟨_, _, .cons (.plain (v := .other) (by simp)) h⟩
    | splat => exact ⟨_, _, .cons (.splat (vs := []) (ks := [])) h⟩
    | forwarding => exact ⟨_, _, .cons (.forwarding (vs := []) (ks := [])) h⟩
    | keywords es => obtain ⟨k, hk⟩ := he es; exact ⟨_, _, .cons (.keywords hk) h⟩
    | blockArg => exact ⟨_, _, .cons .blockArg h⟩

/-- What the collected arity says about the parameters. -/
structure ArityOK (a : MethodArity) (fs : List Formal) : Prop where
  required : .pattern ∉ fs → a.required = needed fs
  optional : a.optional = spare fs
  rest : a.hasRest = true ↔ Open fs
  kwReq : ∀ n, n ∈ a.requiredKeywords ↔ .kwReq n ∈ fs
  kwOpt : ∀ n, n ∈ a.optionalKeywords ↔ .kwOpt n ∈ fs
  kwRest : a.hasKwrest = true ↔ KwOpen fs

theorem ArityOK.add {a : MethodArity} {fs : List Formal} (h : ArityOK a fs) (f : Formal) :
    ArityOK (match paramFact f with | some p => a.add p | none => a) (fs ++ [f]) := by
  obtain ⟨h1, h2, h3, h4, h5, h6⟩ := h
  cases f <;> (constructor <;> simp_all [paramFact, MethodArity.add, needed, spare, Open, KwOpen, or_comm])

theorem ArityOK.addAll (gs : List Formal) : ∀ {a : MethodArity} {fs : List Formal}, ArityOK a fs →
    ArityOK ((paramFacts gs).foldl MethodArity.add a) (fs ++ gs) := by
  induction gs with
  | nil => intro a fs h; simpa [paramFacts] using h
  | cons f gs ih =>
    intro a fs h
    have h1 := h.add f
    rw [show fs ++ f :: gs = (fs ++ [f]) ++ gs by simp]
    cases hp : paramFact f with
    | none =>
      rw [show paramFacts (f :: gs) = paramFacts gs by simp [paramFacts, hp]]
      rw [hp] at h1
      exact ih h1
    | some p =>
      rw [show paramFacts (f :: gs) = p :: paramFacts gs by simp [paramFacts, hp]]
      rw [hp] at h1
      exact ih h1

theorem arity_ok (fs : List Formal) : ArityOK (.fromParams (paramFacts fs)) fs := by
  have : ArityOK {} [] := by constructor <;> simp [needed, spare, Open, KwOpen]
  simpa [MethodArity.fromParams] using this.addAll fs

theorem ArityOK.declares {a : MethodArity} {fs : List Formal} (h : ArityOK a fs) : a.declaresKeywords = true ↔ TakesKw fs := by
  simp only [MethodArity.declaresKeywords, Bool.or_eq_true, Bool.not_eq_true', TakesKw, h.kwRest]
  constructor
  · rintro ((h1 | h1) | h1)
    · exact .inl h1
    · cases hr : a.requiredKeywords with
      | nil => simp [hr] at h1
      | cons n l => exact .inr ⟨n, .inl ((h.kwReq n).1 (by simp [hr]))⟩
    · cases hr : a.optionalKeywords with
      | nil => simp [hr] at h1
      | cons n l => exact .inr ⟨n, .inr ((h.kwOpt n).1 (by simp [hr]))⟩
  · rintro (h1 | ⟨n, h1 | h1⟩)
    · exact .inl (.inl h1)
    · refine .inl (.inr ?_)
      have := (h.kwReq n).2 h1
      cases hr : a.requiredKeywords <;> simp_all
    · refine .inr ?_
      have := (h.kwOpt n).2 h1
      cases hr : a.optionalKeywords <;> simp_all

/-- What a mismatch means. -/
theorem mismatch_iff {a : MethodArity} {fs : List Formal} (h : ArityOK a fs) (hp : .pattern ∉ fs) (s : Sig) :
    (∃ d, arityMismatch s a = some d) ↔
      (¬ Open fs ∧ needed fs + spare fs < s.positional) ∨ (s.positionalSplat = false ∧ s.positional < needed fs) := by
  unfold arityMismatch
  rw [h.required hp, h.optional]
  have hr := h.rest
  cases ha : a.hasRest <;> cases hs : s.positionalSplat <;> simp_all
  · rw [or_comm]

end Verif.Arity
