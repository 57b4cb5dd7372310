import Verif.Lemmas.Snapshot
/-!
Symbols, graph facts, methods and type facts: each comes back in the file that is asked for, or is refused.
-/
namespace Verif.Snapshot

theorem range_back {r : Range} (h : RangeMade r) (file : Nat) : restRange (snapRange r) file = .ok (r.inFile file) := by
  unfold RangeMade at h
  have h' : ¬ r.start > r.stop := by omega
  show (if r.start > r.stop then Res.err else newRange file r.start r.stop) = _
  rw [if_neg h', newRange, if_pos h]; rfl

theorem range_made {s : SRange} {file : Nat} {r : Range} (h : restRange s file = .ok r) : RangeMade r ∧ r.file = file := by
  unfold restRange newRange at h
  split at h
  · cases h
  · split at h
    · rename_i hle; cases h; exact ⟨hle, rfl⟩
    · cases h

theorem contained_ok {i o : Range} : contained i o = .ok () ↔ Within i o := by
  unfold contained Within
  split
  · rename_i h; simp only [reduceCtorEq, false_iff]; omega
  · rename_i h; simp only [true_iff]; omega

theorem within_inFile {i o : Range} (h : Within i o) (file : Nat) : contained (i.inFile file) (o.inFile file) = .ok () := by
  rw [contained_ok]; exact ⟨rfl, h.2⟩

theorem symKind_back (v : SymKind) : restSymKind (snapSymKind v) = v := by cases v <;> rfl
theorem nodeKind_back (v : NodeKind) : restNodeKind (snapNodeKind v) = v := by cases v <;> rfl
theorem edgeKind_back (v : EdgeKind) : restEdgeKind (snapEdgeKind v) = v := by cases v <;> rfl
theorem edgeProv_back (v : EdgeProv) : restEdgeProv (snapEdgeProv v) = v := by cases v <;> rfl
theorem paramKind_back (v : ParamKind) : restParamKind (snapParamKind v) = v := by cases v <;> rfl
theorem visibility_back (v : Visibility) : restVisibility (snapVisibility v) = v := by cases v <;> rfl
theorem prov_back (v : Prov) : restProv (snapProv v) = v := by cases v <;> rfl
theorem bodyKind_back (v : BodyKind) : restBodyKind (snapBodyKind v) = v := by cases v <;> rfl

section
variable {u : Uni} (hnul : u.upper '\x00' = false)
include hnul

theorem sym_back {s : Sym} (h : SymMade u s) (file : Nat) :
    Outcome (FqnFits s.fqn) (restSym u (snapSym s) file) (s.inFile file) := by
  simp only [restSym, snapSym, range_back h.range, range_back h.nameRange, within_inFile h.within, Res.bind, symKind_back]
  exact Outcome.map (fqn_back hnul h.fqn) rfl

theorem node_back {n : Node} (h : NodeMade u n) (file : Nat) :
    Outcome (FqnFits n.fqn) (restNode u (snapNode n) file) (n.inFile file) := by
  simp only [restNode, snapNode, range_back h.range, nodeKind_back]
  exact Outcome.map (fqn_back hnul h.fqn) rfl

theorem edge_back {e : Edge} (h : EdgeMade u e) (file : Nat) :
    Outcome (FqnFits e.source ∧ FqnFits e.target) (restEdge u (snapEdge e) file) (e.inFile file) := by
  simp only [restEdge, snapEdge, range_back h.range, edgeKind_back, edgeProv_back]
  exact Outcome.bind (fqn_back hnul h.source) (Outcome.map (fqn_back hnul h.target) rfl)

theorem unresolved_back {e : Unresolved} (h : UnresolvedMade u e) (file : Nat) :
    Outcome (FqnFits e.source ∧ e.target.length ≤ 4096 ∧ FqnFits e.context) (restUnresolved u (snapUnresolved e) file)
      (e.inFile file) := by
  simp only [restUnresolved, snapUnresolved, range_back h.range, edgeKind_back, edgeProv_back]
  exact Outcome.bind (fqn_back hnul h.source) (Outcome.bind (parts_back hnul h.target) (Outcome.map (fqn_back hnul h.context) rfl))

theorem override_back {o : Override} (h : OverrideMade u o) (file : Nat) :
    Outcome (FqnFits o.owner) (restOverride u (snapOverride o) file) (o.inFile file) := by
  simp only [restOverride, snapOverride, range_back h.range, visibility_back, method_back h.method]
  exact Outcome.map (fqn_back hnul h.owner) rfl

theorem subject_back {s : Subject} (h : ∀ f ∈ s.fqns, FqnMade u f) (hr : ∀ r, s = .expr r → RangeMade r) (file : Nat) :
    Outcome (∀ f ∈ s.fqns, FqnFits f) (restSubject u file (snapSubject s)) (s.inFile file) := by
  cases s with
  | const f =>
    simp only [snapSubject, restSubject]
    exact Outcome.iff (Outcome.map (fqn_back hnul (h f (by simp [Subject.fqns]))) rfl) (by simp [Subject.fqns])
  | instVar f n =>
    simp only [snapSubject, restSubject]
    exact Outcome.iff (Outcome.map (fqn_back hnul (h f (by simp [Subject.fqns]))) rfl) (by simp [Subject.fqns])
  | classVar f n =>
    simp only [snapSubject, restSubject]
    exact Outcome.iff (Outcome.map (fqn_back hnul (h f (by simp [Subject.fqns]))) rfl) (by simp [Subject.fqns])
  | ret f =>
    simp only [snapSubject, restSubject]
    exact Outcome.iff (Outcome.map (fqn_back hnul (h f (by simp [Subject.fqns]))) rfl) (by simp [Subject.fqns])
  | param f n =>
    simp only [snapSubject, restSubject]
    exact Outcome.iff (Outcome.map (fqn_back hnul (h f (by simp [Subject.fqns]))) rfl) (by simp [Subject.fqns])
  | localVar i n => exact Outcome.iff Outcome.ok (by simp [Subject.fqns])
  | globalVar n => exact Outcome.iff Outcome.ok (by simp [Subject.fqns])
  | expr r =>
    simp only [snapSubject, restSubject, range_back (hr r rfl), Res.bind]
    exact Outcome.iff Outcome.ok (by simp [Subject.fqns])

theorem tyFact_back {t : TyFact} (h : TyFactMade u t) (file : Nat) :
    Outcome ((∀ f ∈ t.subject.fqns, FqnFits f) ∧ TyFits 0 t.ty) (restTyFact u (snapTyFact t) file) (t.inFile file) := by
  simp only [restTyFact, snapTyFact, range_back h.range, prov_back]
  exact Outcome.bind (subject_back hnul h.subject h.expr file) (Outcome.map (ty_back hnul h.ty 0) rfl)

end

theorem sym_made {u : Uni} {s : SSym} {file : Nat} {x : Sym} (h : restSym u s file = .ok x) :
    SymMade u x ∧ FqnFits x.fqn ∧ x.range.file = file ∧ x.nameRange.file = file := by
  simp only [restSym, bind_ok] at h
  obtain ⟨r, hr, n, hn, _, hc, f, hf, h⟩ := h
  cases h
  exact ⟨⟨(fqn_made hf).1, (range_made hr).1, (range_made hn).1, contained_ok.mp hc⟩, (fqn_made hf).2, (range_made hr).2, (range_made hn).2⟩

theorem node_made {u : Uni} {s : SNode} {file : Nat} {x : Node} (h : restNode u s file = .ok x) :
    NodeMade u x ∧ FqnFits x.fqn ∧ x.range.file = file := by
  simp only [restNode, bind_ok] at h
  obtain ⟨f, hf, r, hr, h⟩ := h
  cases h
  exact ⟨⟨(fqn_made hf).1, (range_made hr).1⟩, (fqn_made hf).2, (range_made hr).2⟩

theorem edge_made {u : Uni} {s : SEdge} {file : Nat} {x : Edge} (h : restEdge u s file = .ok x) :
    EdgeMade u x ∧ (FqnFits x.source ∧ FqnFits x.target) ∧ x.range.file = file := by
  simp only [restEdge, bind_ok] at h
  obtain ⟨f, hf, g, hg, r, hr, h⟩ := h
  cases h
  exact ⟨⟨(fqn_made hf).1, (fqn_made hg).1, (range_made hr).1⟩, ⟨(fqn_made hf).2, (fqn_made hg).2⟩, (range_made hr).2⟩

theorem unresolved_made {u : Uni} {s : SUnresolved} {file : Nat} {x : Unresolved} (h : restUnresolved u s file = .ok x) :
    UnresolvedMade u x ∧ (FqnFits x.source ∧ x.target.length ≤ 4096 ∧ FqnFits x.context) ∧ x.range.file = file := by
  simp only [restUnresolved, bind_ok] at h
  obtain ⟨f, hf, t, ht, g, hg, r, hr, h⟩ := h
  cases h
  exact ⟨⟨(fqn_made hf).1, (parts_made ht).1, (fqn_made hg).1, (range_made hr).1⟩,
    ⟨(fqn_made hf).2, (parts_made ht).2, (fqn_made hg).2⟩, (range_made hr).2⟩

theorem override_made {u : Uni} {s : SOverride} {file : Nat} {x : Override} (h : restOverride u s file = .ok x) :
    OverrideMade u x ∧ FqnFits x.owner ∧ x.range.file = file := by
  simp only [restOverride, bind_ok, ofOption_ok] at h
  obtain ⟨f, hf, m, hm, r, hr, h⟩ := h
  cases h
  exact ⟨⟨(fqn_made hf).1, ⟨_, hm⟩, (range_made hr).1⟩, (fqn_made hf).2, (range_made hr).2⟩

theorem subject_made {u : Uni} {s : SSubject} {file : Nat} {x : Subject} (h : restSubject u file s = .ok x) :
    (∀ f ∈ x.fqns, FqnMade u f ∧ FqnFits f) ∧ ∀ r, x = .expr r → RangeMade r ∧ r.file = file := by
  cases s with
  | const f =>
    simp only [restSubject, bind_ok] at h; obtain ⟨f, hf, h⟩ := h; cases h
    exact ⟨by simp only [Subject.fqns, List.mem_singleton]; rintro _ rfl; exact fqn_made hf, fun r hr => by cases hr⟩
  | instVar f n =>
    simp only [restSubject, bind_ok] at h; obtain ⟨f, hf, h⟩ := h; cases h
    exact ⟨by simp only [Subject.fqns, List.mem_singleton]; rintro _ rfl; exact fqn_made hf, fun r hr => by cases hr⟩
  | classVar f n =>
    simp only [restSubject, bind_ok] at h; obtain ⟨f, hf, h⟩ := h; cases h
    exact ⟨by simp only [Subject.fqns, List.mem_singleton]; rintro _ rfl; exact fqn_made hf, fun r hr => by cases hr⟩
  | ret f =>
    simp only [restSubject, bind_ok] at h; obtain ⟨f, hf, h⟩ := h; cases h
    exact ⟨by simp only [Subject.fqns, List.mem_singleton]; rintro _ rfl; exact fqn_made hf, fun r hr => by cases hr⟩
  | param f n =>
    simp only [restSubject, bind_ok] at h; obtain ⟨f, hf, h⟩ := h; cases h
    exact ⟨by simp only [Subject.fqns, List.mem_singleton]; rintro _ rfl; exact fqn_made hf, fun r hr => by cases hr⟩
  | localVar i n =>
    simp only [restSubject] at h; cases h
    exact ⟨by simp [Subject.fqns], fun r hr => by cases hr⟩
  | globalVar n =>
    simp only [restSubject] at h; cases h
    exact ⟨by simp [Subject.fqns], fun r hr => by cases hr⟩
  | expr r =>
    simp only [restSubject, bind_ok] at h; obtain ⟨r, hr, h⟩ := h; cases h
    exact ⟨by simp [Subject.fqns], fun r' hr' => by cases hr'; exact range_made hr⟩

theorem tyFact_made {u : Uni} {s : STyFact} {file : Nat} {x : TyFact} (h : restTyFact u s file = .ok x) :
    TyFactMade u x ∧ ((∀ f ∈ x.subject.fqns, FqnFits f) ∧ TyFits 0 x.ty) ∧ x.range.file = file ∧
      ∀ r, x.subject = .expr r → r.file = file := by
  simp only [restTyFact, bind_ok] at h
  obtain ⟨y, hy, t, ht, r, hr, h⟩ := h
  cases h
  have hs := subject_made hy
  exact ⟨⟨fun f hf => (hs.1 f hf).1, fun r h => (hs.2 r h).1, (ty_made _ _ _ ht).1, (range_made hr).1⟩,
    ⟨fun f hf => (hs.1 f hf).2, (ty_made _ _ _ ht).2⟩, (range_made hr).2, fun r h => (hs.2 r h).2⟩

/-! ### methods -/

def TmplFits (t : Tmpl) : Prop := ∀ x, InTmpl t x → TyFits 1 x

theorem restTmpls_eq {u : Uni} {l : List STmpl} : restTmpls u l = mapR (restTmpl u) l := by
  induction l with
  | nil => rfl
  | cons a l ih => simp only [restTmpls, mapR, ih]

theorem snapTmpls_eq {l : List Tmpl} : snapTmpls l = l.map snapTmpl := by
  induction l with
  | nil => rfl
  | cons a l ih => simp only [snapTmpls, ih, List.map_cons]

theorem tmpl_back {u : Uni} (hnul : u.upper '\x00' = false) {t : Tmpl} (h : TmplMade u t) :
    Outcome (TmplFits t) (restTmpl u (snapTmpl t)) t := by
  induction h with
  | concrete h =>
    simp only [snapTmpl, restTmpl]
    refine Outcome.iff (Outcome.map (ty_back hnul h 1) rfl) ⟨fun h x hx => ?_, fun h => h _ (.concrete _)⟩
    cases hx; exact h
  | receiver => exact Outcome.iff Outcome.ok ⟨fun _ x hx => (by cases hx), fun _ => trivial⟩
  | var n => exact Outcome.iff Outcome.ok ⟨fun _ x hx => (by cases hx), fun _ => trivial⟩
  | unconstrained => exact Outcome.iff Outcome.ok ⟨fun _ x hx => (by cases hx), fun _ => trivial⟩
  | array h ih =>
    simp only [snapTmpl, restTmpl]
    refine Outcome.iff (Outcome.map ih rfl) ⟨fun h x hx => ?_, fun h x hx => h x (.array hx)⟩
    cases hx with | array hx => exact h x hx
  | hash h1 h2 ih1 ih2 =>
    simp only [snapTmpl, restTmpl]
    refine Outcome.iff (Outcome.bind ih1 (Outcome.map ih2 rfl))
      ⟨fun h x hx => ?_, fun h => ⟨fun x hx => h x (.key hx), fun x hx => h x (.value hx)⟩⟩
    cases hx with
    | key hx => exact h.1 x hx
    | value hx => exact h.2 x hx
  | union h ih =>
    simp only [snapTmpl, restTmpl, restTmpls_eq, snapTmpls_eq]
    refine Outcome.iff (Outcome.map (Outcome.mapR_self ih) rfl) ⟨fun h x hx => ?_, fun h t ht x hx => h x (.union ht hx)⟩
    cases hx with | union ht hx => exact h _ ht x hx

mutual
theorem tmpl_made {u : Uni} : ∀ (s : STmpl) (t : Tmpl), restTmpl u s = .ok t → TmplMade u t ∧ TmplFits t
  | .concrete s, t, h => by
    simp only [restTmpl, bind_ok] at h; obtain ⟨x, hx, h⟩ := h; cases h
    exact ⟨.concrete (ty_made _ _ _ hx).1, fun y hy => by cases hy; exact (ty_made _ _ _ hx).2⟩
  | .receiver, t, h => by
    simp only [restTmpl] at h; cases h; exact ⟨.receiver, fun y hy => by cases hy⟩
  | .var n, t, h => by
    simp only [restTmpl] at h; cases h; exact ⟨.var n, fun y hy => by cases hy⟩
  | .unconstrained, t, h => by
    simp only [restTmpl] at h; cases h; exact ⟨.unconstrained, fun y hy => by cases hy⟩
  | .array s, t, h => by
    simp only [restTmpl, bind_ok] at h; obtain ⟨x, hx, h⟩ := h; cases h
    have := tmpl_made s x hx
    exact ⟨.array this.1, fun y hy => by cases hy with | array hy => exact this.2 y hy⟩
  | .hash k v, t, h => by
    simp only [restTmpl, bind_ok] at h; obtain ⟨x, hx, y, hy, h⟩ := h; cases h
    have h1 := tmpl_made k x hx
    have h2 := tmpl_made v y hy
    exact ⟨.hash h1.1 h2.1, fun y hy => by
      cases hy with
      | key hy => exact h1.2 y hy
      | value hy => exact h2.2 y hy⟩
  | .union ts, t, h => by
    simp only [restTmpl, bind_ok] at h; obtain ⟨x, hx, h⟩ := h; cases h
    have := tmpls_made ts x hx
    exact ⟨.union fun t ht => (this t ht).1, fun y hy => by cases hy with | union ht hy => exact (this _ ht).2 y hy⟩
theorem tmpls_made {u : Uni} : ∀ (l : List STmpl) (m : List Tmpl), restTmpls u l = .ok m → ∀ t ∈ m, TmplMade u t ∧ TmplFits t
  | [], m, h => by simp only [restTmpls, Res.ok.injEq] at h; subst h; simp
  | s :: l, m, h => by
    simp only [restTmpls, bind_ok] at h
    obtain ⟨t, ht, m', hm, h⟩ := h; cases h
    intro x hx
    rcases List.mem_cons.mp hx with rfl | hx
    · exact tmpl_made s _ ht
    · exact tmpls_made l m' hm x hx
end

theorem sig_back {u : Uni} (hnul : u.upper '\x00' = false) {s : Sig} (h : ∀ t ∈ s.tmpls, TmplMade u t) :
    Outcome (∀ t ∈ s.tmpls, TmplFits t) (restSig u (snapSig s)) s := by
  simp only [Sig.tmpls, List.mem_append, List.mem_map, List.mem_cons, List.not_mem_nil, or_false] at h ⊢
  simp only [restSig, snapSig, restTmpls_eq, snapTmpls_eq]
  have hp : Outcome (∀ p ∈ s.params, TmplFits p.ty) (mapR (restSigParam u) (s.params.map snapSigParam)) s.params := by
    refine Outcome.mapR_self fun p hp => ?_
    simp only [restSigParam, snapSigParam, paramKind_back]
    exact Outcome.map (tmpl_back hnul (h _ (Or.inl (Or.inl ⟨p, hp, rfl⟩)))) rfl
  have hb : Outcome (∀ t ∈ s.blockParams, TmplFits t) (mapR (restTmpl u) (s.blockParams.map snapTmpl)) s.blockParams :=
    Outcome.mapR_self fun t ht => tmpl_back hnul (h _ (Or.inl (Or.inr ht)))
  refine Outcome.iff (Outcome.bind hp (Outcome.bind hb (Outcome.bind (tmpl_back hnul (h _ (Or.inr (Or.inl rfl))))
    (Outcome.map (tmpl_back hnul (h _ (Or.inr (Or.inr rfl)))) rfl)))) ?_
  constructor
  · rintro ⟨h1, h2, h3, h4⟩ t ht
    rcases ht with (⟨p, hp, rfl⟩ | ht) | rfl | rfl
    · exact h1 p hp
    · exact h2 t ht
    · exact h3
    · exact h4
  · intro h
    exact ⟨fun p hp => h _ (Or.inl (Or.inl ⟨p, hp, rfl⟩)), fun t ht => h _ (Or.inl (Or.inr ht)), h _ (Or.inr (Or.inl rfl)),
      h _ (Or.inr (Or.inr rfl))⟩

theorem sig_made {u : Uni} {s : SSig} {x : Sig} (h : restSig u s = .ok x) : ∀ t ∈ x.tmpls, TmplMade u t ∧ TmplFits t := by
  simp only [restSig, bind_ok] at h
  obtain ⟨ps, hp, bs, hb, b, hb', r, hr, h⟩ := h
  cases h
  intro t ht
  simp only [Sig.tmpls, List.mem_append, List.mem_map, List.mem_cons, List.not_mem_nil, or_false] at ht
  rcases ht with (⟨p, hm, rfl⟩ | ht) | rfl | rfl
  · obtain ⟨q, -, hq⟩ := mapR_mem hp p hm
    simp only [restSigParam, bind_ok] at hq
    obtain ⟨t, ht, hq⟩ := hq
    cases hq
    exact tmpl_made _ _ ht
  · exact tmpls_made _ _ hb t ht
  · exact tmpl_made _ _ hb'
  · exact tmpl_made _ _ hr

theorem blank_iff {u : Uni} {r : Str} : ReasonMade u r ↔ blank u r = false := by
  unfold ReasonMade blank
  rw [Bool.eq_false_iff, ne_eq, List.all_eq_true]
  constructor
  · rintro ⟨c, hc, hw⟩ h; rw [h c hc] at hw; cases hw
  · intro h
    by_cases hx : ∃ c ∈ r, u.white c = false
    · exact hx
    · exact absurd (fun c hc => by
        by_cases hw : u.white c = true
        · exact hw
        · exact absurd ⟨c, hc, by simpa using hw⟩ hx) h

theorem availability_back {u : Uni} {a : Availability} (h1 : ∀ r, a = .unavailable r → ReasonMade u r)
    (h2 : ∀ r, a = .absent r → ReasonMade u r) : restAvailability u (snapAvailability a) = .ok a := by
  cases a with
  | available => rfl
  | unavailable r => simp only [snapAvailability, restAvailability, blank_iff.mp (h1 r rfl)]; rfl
  | absent r => simp only [snapAvailability, restAvailability, blank_iff.mp (h2 r rfl)]; rfl

theorem availability_made {u : Uni} {s : SAvailability} {a : Availability} (h : restAvailability u s = .ok a) :
    (∀ r, a = .unavailable r → ReasonMade u r) ∧ ∀ r, a = .absent r → ReasonMade u r := by
  cases s with
  | available => simp only [restAvailability] at h; cases h; exact ⟨fun r h => (by cases h), fun r h => by cases h⟩
  | unavailable r =>
    simp only [restAvailability] at h
    split at h
    · cases h
    · rename_i hb; cases h
      refine ⟨fun r h => ?_, fun r h => by cases h⟩
      cases h; exact blank_iff.mpr (by simpa using hb)
  | absent r =>
    simp only [restAvailability] at h
    split at h
    · cases h
    · rename_i hb; cases h
      refine ⟨fun r h => (by cases h), fun r h => ?_⟩
      cases h; exact blank_iff.mpr (by simpa using hb)

/-- The three parts of the higher-order record rebuilt one after the other. -/
theorem higher_back (sigs : List Sig) (f : Option Forwarded) (d : Option (List Str)) :
    withDirect (withForwarded (withSigs none sigs) f) d =
      if sigs = [] ∧ f = none ∧ d = none then none else some ⟨sigs, f, d⟩ := by
  cases sigs <;> cases f <;> cases d <;> rfl

theorem param_back {p : Param} (h : p.name ≠ []) : restParam (snapParam p) = .ok p := by
  have h' : p.name.isEmpty = false := by cases hn : p.name with | nil => exact absurd hn h | cons c s => rfl
  simp only [restParam, snapParam, h', paramKind_back]; rfl

theorem mapR_ok {α β : Type} {f : β → Res α} {g : α → β} {l : List α} (h : ∀ a ∈ l, f (g a) = .ok a) : mapR f (l.map g) = .ok l := by
  have := Outcome.mapR_self (P := fun _ => True) (f := f) (g := g) (l := l) (by intro a ha; rw [h a ha]; exact Outcome.ok)
  rcases this with ⟨-, h⟩ | ⟨h, -⟩
  · exact h
  · exact absurd (fun _ _ => trivial) h

theorem method_back_fact {u : Uni} (hnul : u.upper '\x00' = false) {m : Method} (h : MethodFactMade u m) (file : Nat) :
    Outcome ((FqnFits m.fqn ∧ FqnFits m.owner) ∧ ∀ t, m.HasType t → TyFits 1 t) (restMethod u (snapMethod m) file)
      (m.inFile file) := by
  have hd : optR (fun n => ofOption (newMethod u n)) m.delegate = .ok m.delegate := by
    cases hm : m.delegate with
    | none => rfl
    | some d => simp only [optR, method_back (h.delegate d hm), Res.bind]
  have hf : optR (restForwarded u) m.forwarded = .ok m.forwarded := by
    unfold Method.forwarded
    cases hh : m.higher with
    | none => rfl
    | some x =>
      cases hx : x.forwarded with
      | none => simp only [hx, optR]
      | some f => simp only [hx, optR, restForwarded, method_back (h.forwarded x hh f hx), Res.bind]
  have hs : Outcome (∀ s ∈ m.sigs, ∀ t ∈ s.tmpls, TmplFits t) (mapR (restSig u) (m.sigs.map snapSig)) m.sigs := by
    refine Outcome.mapR_self fun s hs => sig_back hnul fun t ht => ?_
    unfold Method.sigs at hs
    cases hh : m.higher with
    | none => simp only [hh] at hs; cases hs
    | some x => simp only [hh] at hs; exact h.sigs x hh s hs t ht
  have hhigh : withDirect (withForwarded (withSigs none m.sigs) m.forwarded) m.direct = m.higher := by
    rw [higher_back]
    unfold Method.sigs Method.forwarded Method.direct
    cases hh : m.higher with
    | none => rfl
    | some x =>
      obtain ⟨a, b, c⟩ := x
      have := h.higher
      rw [hh] at this
      simp only
      rw [if_neg]
      rintro ⟨rfl, rfl, rfl⟩
      exact this rfl
  simp only [restMethod, snapMethod, range_back h.range, range_back h.nameRange, within_inFile h.within, Res.bind,
    mapR_ok fun p hp => param_back (h.params p hp), hd, hf, availability_back h.unavailable h.absent, visibility_back]
  refine Outcome.iff (Outcome.bind hs (Outcome.bind (fqn_back hnul h.fqn) (Outcome.map (fqn_back hnul h.owner) ?_))) ?_
  · simp only [hhigh]; rfl
  · constructor
    · rintro ⟨h1, h2, h3⟩
      refine ⟨⟨h2, h3⟩, ?_⟩
      rintro t ⟨x, hx, s, hs, e, he, ht⟩
      refine h1 s ?_ e he t ht
      unfold Method.sigs
      cases hx' : m.higher with
      | none => rw [hx'] at hx; cases hx
      | some y => rw [hx'] at hx; cases hx; exact hs
    · rintro ⟨⟨h2, h3⟩, h1⟩
      refine ⟨fun s hs e he t ht => ?_, h2, h3⟩
      unfold Method.sigs at hs
      cases hx' : m.higher with
      | none => simp only [hx'] at hs; cases hs
      | some y => simp only [hx'] at hs; exact h1 t ⟨y, hx', s, hs, e, he, ht⟩

theorem method_made_fact {u : Uni} {s : SMethod} {file : Nat} {x : Method} (h : restMethod u s file = .ok x) :
    MethodFactMade u x ∧ ((FqnFits x.fqn ∧ FqnFits x.owner) ∧ ∀ t, x.HasType t → TyFits 1 t) ∧ x.range.file = file ∧
      x.nameRange.file = file := by
  simp only [restMethod, bind_ok] at h
  obtain ⟨r, hr, n, hn, _, hc, ps, hp, d, hd, sigs, hs, fw, hfw, f, hf, o, ho, a, ha, h⟩ := h
  cases h
  have hsig : ∀ y ∈ sigs, ∀ t ∈ y.tmpls, TmplMade u t ∧ TmplFits t := by
    intro y hy
    obtain ⟨z, -, hz⟩ := mapR_mem hs y hy
    exact sig_made hz
  have hfwd : ∀ y ∈ fw, MethodMade u y.method := by
    intro y hy
    cases hsf : s.forwarded with
    | none => rw [hsf] at hfw; simp only [optR] at hfw; cases hfw; cases hy
    | some z =>
      rw [hsf] at hfw
      simp only [optR, bind_ok, restForwarded, ofOption_ok] at hfw
      obtain ⟨b, ⟨m, hm, hb⟩, hfw⟩ := hfw
      cases hb; cases hfw; cases hy
      exact ⟨_, hm⟩
  rw [higher_back]
  refine ⟨⟨(fqn_made hf).1, (fqn_made ho).1, (range_made hr).1, (range_made hn).1, contained_ok.mp hc, ?_, ?_,
    (availability_made ha).1, (availability_made ha).2, ?_, ?_, ?_⟩, ⟨⟨(fqn_made hf).2, (fqn_made ho).2⟩, ?_⟩, (range_made hr).2,
    (range_made hn).2⟩
  · intro p hm
    obtain ⟨q, -, hq⟩ := mapR_mem hp p hm
    unfold restParam at hq
    split at hq
    · cases hq
    · rename_i hne
      cases hq
      intro hnil
      simp only at hnil
      rw [hnil] at hne
      exact hne rfl
  · intro y hy
    cases hsd : s.delegate with
    | none => rw [hsd] at hd; simp only [optR] at hd; cases hd; cases hy
    | some z =>
      rw [hsd] at hd
      simp only [optR, bind_ok, ofOption_ok] at hd
      obtain ⟨m, hm, hd⟩ := hd
      cases hd; cases hy
      exact ⟨_, hm⟩
  · simp only
    split
    · simp
    · rename_i hne
      intro heq
      simp only [Option.some.injEq, Higher.mk.injEq] at heq
      exact hne heq
  · intro y hy
    simp only at hy
    split at hy
    · cases hy
    · cases hy; exact fun z hz t ht => (hsig z hz t ht).1
  · intro y hy
    simp only at hy
    split at hy
    · cases hy
    · cases hy; exact hfwd
  · rintro t ⟨y, hy, z, hz, e, he, ht⟩
    simp only at hy
    split at hy
    · cases hy
    · cases hy; exact (hsig z hz e he).2 t ht

end Verif.Snapshot
