import Verif.Lemmas.RbsTemplates
import Verif.Props.RbsAncestors
/-!
C71: calls with a block of methods declared in RBS get types that describe what they return, if the methods keep what their
declarations say.
-/
namespace Verif.RbsTemplates
open Verif.Types
open Verif.Yard (Text Unicode)
open Verif.RbsTypes
open Verif.RbsAncestors (Instances Scopes ParamName ParamOf Declared Core Scoped Inherited Plain AnInstance Owner ownerOf prepareRbs)
open Verif.HigherOrder (Out Tmpl Sig Var Reason Prepared Occ Gives Before Honest InOrder Self TDesc Meth Conforms rubyParam positional paramAt
  countOk prepare finish validate bind_ok collect_ok)

variable {U : Unicode} {W : World}

/-- C71: the values of a written type are described by its template, if it is a fair one: no `void`, and no type parameters in records. -/
theorem c71_template_sound {ps : List Text} {θ : Var → W.V → Prop} {S : W.V → Prop} {R : Reading W}
    (hR : Reads U W (· ∈ ps) (fun n => θ (code n)) S R) {t : Rbs} {d : Nat} {m : Tmpl} (h : template U ps d t = .ok m) (hf : Fair (· ∈ ps) t)
    {v : W.V} (hv : Sat R t v) : TDesc W S θ m v :=
  template_sound (fun _ => Iff.rfl) hR t d m h hf v hv

/-- C71: and the template describes only such values, if it has no generic types but arrays and hashes, no integer literals and no `bot`. -/
theorem c71_template_exact {ps : List Text} {θ : Var → W.V → Prop} {S : W.V → Prop} {R : Reading W}
    (hR : Reads U W (· ∈ ps) (fun n => θ (code n)) S R) {t : Rbs} {d : Nat} {m : Tmpl} (h : template U ps d t = .ok m) (hf : Sharp (· ∈ ps) t)
    {v : W.V} (hv : TDesc W S θ m v) : Sat R t v :=
  template_exact (fun _ => Iff.rfl) hR t d m h hf v hv

/-- C71: simple types have templates. -/
theorem c71_supported {ps : List Text} {k : Nat} {t : Rbs} (h : Simple U (· ∈ ps) k t) : ∀ d, d + k ≤ 8 → ∃ m, template U ps d t = .ok m := by
  have hmax : HigherOrder.maxTmplDepth = 8 := rfl
  induction h with
  | @param k n hn => intro d hd; exact ⟨_, by rw [template, if_neg (by omega), if_pos hn]⟩
  | @cls k n path hp =>
    intro d hd
    rw [template, if_neg (by omega)]
    split
    · exact ⟨_, rfl⟩
    · split
      · exact ⟨_, rfl⟩
      · unfold concrete
        rw [conv, className_path hp, if_neg (by simp [hasUnknown])]
        exact ⟨_, rfl⟩
  | selfTy => intro d hd; exact ⟨_, by rw [template, if_neg (by omega)]⟩
  | untyped => intro d hd; exact ⟨_, by rw [template, if_neg (by omega)]⟩
  | array ha _ ih =>
    intro d hd
    obtain ⟨m, hm⟩ := ih (d + 1) (by omega)
    exact ⟨_, by rw [template, if_neg (by omega), if_neg (by simp), if_pos (strip_array.mpr ha), hm]; rfl⟩
  | hash ha _ _ ih1 ih2 =>
    intro d hd
    obtain ⟨m, hm⟩ := ih1 (d + 1) (by omega)
    obtain ⟨m', hm'⟩ := ih2 (d + 1) (by omega)
    exact ⟨_, by rw [template, if_neg (by omega), if_neg (by simp), if_pos (strip_hash.mpr ha), hm, hm']; rfl⟩
  | @union k ts hl hall ih =>
    intro d hd
    have : ∃ ms, templates U ps (d + 1) ts = .ok ms := by
      clear hl
      induction ts with
      | nil => exact ⟨_, by rw [templates]⟩
      | cons t l ihl =>
        obtain ⟨m, hm⟩ := ih t (by simp) (d + 1) (by omega)
        obtain ⟨ms, hms⟩ := ihl (fun t ht => hall t (by simp [ht])) (fun t ht => ih t (by simp [ht]))
        exact ⟨_, by rw [templates, hm, hms]; rfl⟩
    obtain ⟨ms, hms⟩ := this
    exact ⟨_, by rw [template, if_neg (by omega), if_neg (by have : HigherOrder.maxUnion = 8 := rfl; omega), hms]; rfl⟩
  | opt _ ih =>
    intro d hd
    obtain ⟨m, hm⟩ := ih (d + 1) (by omega)
    exact ⟨_, by rw [template, if_neg (by omega), hm]; rfl⟩

theorem keeps_conforms {owner own : List Text} {o : Overload} {b : List Rbs × Rbs} {g : Sig} (h : signature U owner own o b = .ok g)
    {P : Text → Prop} (hP : ∀ n, n ∈ owner ++ own ↔ P n) (hn : Neat P o b) {θ : Var → W.V → Prop} {S : W.V → Prop} {R : Reading W}
    (hR : Reads U W P (fun n => θ (code n)) S R) {m : Meth W} (hk : Keeps R o b m) {args : List W.V} {blk : List W.V → W.V → Prop} {r : W.V}
    (ha : ∀ (i : Nat) v t, args[i]? = some v → rubyParam (positional g.args) args.length i = some t → TDesc W S θ t v)
    (hb : ∀ vs w, List.Forall₂ (TDesc W S θ) g.blockParams vs → blk vs w → TDesc W S θ g.blockRet w) (hr : m args blk r) : TDesc W S θ g.ret r := by
  obtain ⟨h1, h2, h3, h4, -⟩ := signature_ok h
  refine template_sound hP hR _ _ _ h4 hn.ret r (hk args blk r ?_ ?_ hr)
  · intro i v t hv ht
    obtain ⟨zs, e1, e2, e3⟩ := zipped h1
    have p1 : positionals o = (zs.filter fun z => decide (z.1 ≠ .other)).map fun z => (z.1, z.2.1) := by
      unfold positionals; rw [e1, List.filter_map]; rfl
    have p2 : positional g.args = (zs.filter fun z => decide (z.1 ≠ .other)).map fun z => (z.1, z.2.2) := by
      unfold positional; rw [e2, List.filter_map]; rfl
    have hmem := rubyParam_mem ht
    rw [p1] at ht
    rw [p2] at ha
    rw [rubyParam_map (fun z : Rbs × Tmpl => z.1)] at ht
    cases hz : rubyParam (zs.filter fun z => decide (z.1 ≠ .other)) args.length i with
    | none => rw [hz] at ht; cases ht
    | some z =>
      rw [hz] at ht
      simp only [Option.map_some, Option.some.injEq] at ht
      subst ht
      obtain ⟨k, hzm⟩ := rubyParam_mem hz
      obtain ⟨k', hk'⟩ := hmem
      refine template_exact hP hR _ _ _ (e3 _ (List.mem_filter.mp hzm).1) (hn.args _ hk') v (ha i v z.2 hv ?_)
      rw [rubyParam_map (fun z : Rbs × Tmpl => z.2), hz]
      rfl
  · intro vs w hvs hw
    refine template_exact hP hR _ _ _ h3 hn.blockRet w (hb vs w ?_ hw)
    clear hb hw
    have hbp := hn.blockParams
    revert vs
    generalize g.blockParams = ms at h2
    generalize b.1 = ts at h2 hbp
    induction h2 with
    | nil => intro vs h; cases h; exact .nil
    | cons hm _ ih =>
      intro vs h
      cases h with
      | cons hv hvs => exact .cons (template_sound hP hR _ _ _ hm (hbp _ (by simp)) _ hv) (ih (fun t ht => hbp t (by simp [ht])) _ hvs)

/-- C71: a method that keeps an overload keeps the signature made from it. -/
theorem c71_conforms {owner own : List Text} {o : Overload} {b : List Rbs × Rbs} {g : Sig} (h : signature U owner own o b = .ok g)
    (hn : Neat (· ∈ owner ++ own) o b) {recv : Option Ty} {binds : List (Var × Ty)} {m : Meth W}
    (hm : ∀ θ : Text → W.V → Prop, (∀ n t, n ∈ owner ++ own → (code n, t) ∈ binds → ∀ v, Desc W t v → θ n v) →
      ∃ R, Reads U W (· ∈ owner ++ own) θ (Self W recv) R ∧ Keeps R o b m) : Conforms W recv binds g m := by
  intro θ hθ args blk r ha hb hr
  obtain ⟨R, hR, hk⟩ := hm (fun n => θ (code n)) (fun n t hn' ht v hv =>
    hθ (code n) t (by rw [(signature_ok h).2.2.2.2]; exact List.mem_map.mpr ⟨n, hn', rfl⟩) ht v hv)
  exact keeps_conforms h (fun _ => Iff.rfl) hn hR hk ha hb hr

theorem lastWords_iff {l ns : List Text} : lastWords l = .ok ns ↔ List.Forall₂ ParamName l ns := by
  unfold lastWords
  rw [collect_ok]
  have : ∀ s n, (match lastWord s with | some n => Out.ok n | none => Out.panic) = .ok n ↔ ParamName s n := by
    intro s n
    rw [← RbsAncestors.lastWord_iff]
    cases lastWord s <;> simp
  constructor
  · exact fun h => h.imp fun s n h => (this s n).mp h
  · exact fun h => h.imp fun s n h => (this s n).mpr h

theorem prepare_steps {L : RbsAncestors.Loader} {recv : Ty} {m : Name} {args : List Ty} {p : Prepared} (h : prepareRbs U L recv m args = .ok p) :
    ∃ o owner gs, ownerOf U L recv m = .ok o ∧ List.Forall₂ ParamName o.params owner ∧ signatures U owner o.method.overloads = .ok gs ∧
      prepare (some recv) gs (o.binds.map fun p => (code p.1, p.2)) args = .ok p := by
  unfold prepareRbs at h
  obtain ⟨o, ho, h⟩ := bind_ok.mp h
  obtain ⟨gs, hg, h⟩ := bind_ok.mp h
  unfold methodSigs at hg
  obtain ⟨owner, hw, hg⟩ := bind_ok.mp hg
  obtain ⟨gs', hs, hg⟩ := bind_ok.mp hg
  split at hg
  · cases hg
  · cases hg
    exact ⟨o, owner, gs, ho, lastWords_iff.mp hw, hs, h⟩

theorem get_mem {b : RbsAncestors.Bindings} {n : Text} {t : Ty} (h : b.get n = some t) : (n, t) ∈ b := by
  unfold RbsAncestors.Bindings.get at h
  cases hf : b.find? fun p => decide (p.1 = n) with
  | none => rw [hf] at h; cases h
  | some p =>
    rw [hf] at h
    cases h
    have h1 := List.find?_some hf
    simp only [decide_eq_true_eq] at h1
    subst h1
    exact List.mem_of_find?_eq_some hf

/-- C71: the type that is found for a call with a block of a method declared in RBS describes what the method returns, if it keeps
what the overload says and the types in it can be read. -/
theorem c71_sound {L : RbsAncestors.Loader} {I : Instances W} {S : Scopes W} (hC : Core W L I) (hS : Scoped W U L S) (hI : Inherited W L I S) (hP : Plain L)
    {recv : Ty} (hri : AnInstance recv) {v : W.V} (hv : Desc W recv v)
    {name : Name} {args : List Ty} {p : Prepared} (hp : prepareRbs U L recv name args = .ok p) {ret T : Ty} (hf : finish p ret none = .ok T)
    {ow : Owner} (how : ownerOf U L recv name = .ok ow) {o : Overload} (ho : o ∈ ow.method.overloads) {b : List Rbs × Rbs} (hb : o.block = some b)
    {own : List Text} (hown : List.Forall₂ ParamName o.params own) (hn : Neat (fun n => ParamOf L ow.decl n ∨ n ∈ own) o b)
    {m : Meth W} (hm : Works U L I (Desc W recv) ow.decl ow.method v m)
    {g : Sig} (hg : ∀ owner, List.Forall₂ ParamName ow.params owner → signature U owner own o b = .ok g)
    (hc : countOk g.args args.length = true) (hord : InOrder (positional g.args)) {vals : List W.V} (hvals : List.Forall₂ (Desc W) args vals)
    (hha : ∀ (i : Nat) a t, args[i]? = some a → paramAt (positional g.args) i = some t → Honest W (some recv) t a) (hhr : Honest W (some recv) g.blockRet ret)
    (hnew : ∀ x t, t ∈ g.blockParams → Occ x t → ∀ z, Gives (some recv) x g.blockRet ret z → ∀ w, Desc W z w →
      Before W (some recv) (ow.binds.map fun p => (code p.1, p.2)) args g x w)
    {blk : List W.V → W.V → Prop} (hblk : ∀ vs w, List.Forall₂ (Desc W) p.blockParams vs → blk vs w → Desc W ret w)
    {r : W.V} (hr : m vals blk r) : Desc W T r := by
  obtain ⟨ow', owner, gs, ho', hw, hs, hp'⟩ := prepare_steps hp
  rw [how] at ho'
  cases ho'
  obtain ⟨g', hg', own', hown', hsig⟩ := signatures_all hs ho hb
  have : own' = own := by
    have h1 := lastWords_iff.mpr hown
    rw [hown'] at h1
    cases h1
    rfl
  subst this
  have : g' = g := by
    have h1 := hg owner hw
    rw [hsig] at h1
    cases h1
    rfl
  subst this
  have hPar : ∀ n, n ∈ owner ↔ ParamOf L ow.decl n := by
    obtain ⟨c, -, -, ⟨d, hd, hdp, -⟩, -⟩ := RbsAncestors.c70_found how
    intro n
    constructor
    · intro h
      obtain ⟨s, hs, hn⟩ := forall2_right hw h
      exact ⟨d, s, hd, by rw [hdp]; exact hs, hn⟩
    · rintro ⟨d', s, hd', hs, hn⟩
      rw [RbsAncestors.declared_unique hd' hd, hdp] at hs
      obtain ⟨n', hn', hp'⟩ := forall2_left hw hs
      rw [RbsAncestors.paramName_unique hn hp']
      exact hn'
  have hPar' : ∀ n, n ∈ owner ++ own' ↔ (ParamOf L ow.decl n ∨ n ∈ own') := by
    intro n; rw [List.mem_append, hPar]
  obtain ⟨θ0, hθ0, hbound, hbind⟩ := RbsAncestors.c70_bindings hC hS hI hP how hri hv
  refine HigherOrder.c64_sound hp' hf hg' hc hord ?_ hvals hha hhr hnew hblk hr
  intro θ hθ args blk r ha hb' hr
  have hself : ∀ x, Self W (some recv) x ↔ Desc W recv x := fun x => by simp [Self]
  obtain ⟨R, hR, hk⟩ := hm o ho b own' hb hown (fun n => θ (code n)) ⟨θ0, hθ0, fun n hn y hy => by
    cases ht : ow.binds.get n with
    | none => exact absurd ht ((hbound n).mpr hn)
    | some t =>
      refine hθ (code n) t ?_ (List.mem_map.mpr ⟨(n, t), get_mem ht, rfl⟩) y (hbind n t y ht hy)
      rw [(signature_ok hsig).2.2.2.2]
      exact List.mem_map.mpr ⟨n, (hPar' n).mpr (.inl hn), rfl⟩⟩
  have hR' : Reads U W _ (fun n => θ (code n)) (Self W (some recv)) R :=
    ⟨hR.rooted, hR.exactly, hR.name, hR.var, fun x hx => (hself x).mpr (hR.self x hx), hR.boolish⟩
  exact keeps_conforms hsig hPar' hn hR' hk ha hb' hr

/-- C71: so for a method without arguments whose block answers with a type parameter of the method, which its parameters do not
mention (`map`, `flat_map`, `group_by`, …), the type is right whatever the block answers. -/
theorem c71_generic {L : RbsAncestors.Loader} {I : Instances W} {S : Scopes W} (hC : Core W L I) (hS : Scoped W U L S) (hI : Inherited W L I S) (hP : Plain L)
    {recv : Ty} (hri : AnInstance recv) {v : W.V} (hv : Desc W recv v)
    {name : Name} {p : Prepared} (hp : prepareRbs U L recv name [] = .ok p) {ret T : Ty} (hf : finish p ret none = .ok T)
    {ow : Owner} (how : ownerOf U L recv name = .ok ow) {o : Overload} (ho : o ∈ ow.method.overloads) (hargs : o.args = [])
    {ts : List Rbs} {x : Text} (hb : o.block = some (ts, .cls x)) {own : List Text} (hown : List.Forall₂ ParamName o.params own) (hx : x ∈ own)
    (hts : ∀ t ∈ ts, ¬ Mentions x t) (hn : Neat (fun n => ParamOf L ow.decl n ∨ n ∈ own) o (ts, .cls x))
    {m : Meth W} (hm : Works U L I (Desc W recv) ow.decl ow.method v m)
    {blk : List W.V → W.V → Prop} (hblk : ∀ vs w, List.Forall₂ (Desc W) p.blockParams vs → blk vs w → Desc W ret w)
    {r : W.V} (hr : m [] blk r) : Desc W T r := by
  obtain ⟨ow', owner, gs, ho', hw, hs, hp'⟩ := prepare_steps hp
  rw [how] at ho'
  cases ho'
  obtain ⟨g, hg, own', hown', hsig⟩ := signatures_all hs ho hb
  have e1 := lastWords_iff.mpr hown
  rw [hown'] at e1
  cases e1
  obtain ⟨h1, h2, h3, -, -⟩ := signature_ok hsig
  rw [hargs] at h1
  have hga : g.args = [] := by cases hga : g.args with
    | nil => rfl
    | cons a l => rw [hga] at h1; cases h1
  have hbr : g.blockRet = .var (code x) := by
    rw [template, if_neg (by decide), if_pos (List.mem_append.mpr (.inr hx))] at h3
    injection h3 with h3
    exact h3.symm
  refine c71_sound hC hS hI hP hri hv hp hf how ho hb hown hn hm (g := g) ?_ ?_ ?_ .nil ?_ ?_ ?_ hblk hr
  · intro owner' hw'
    have e1 := lastWords_iff.mpr hw
    rw [lastWords_iff.mpr hw'] at e1
    cases e1
    exact hsig
  · rw [hga]; rfl
  · rw [hga]; exact ⟨[], [], [], rfl, by simp, by simp, by simp, by simp⟩
  · intro i a t h; simp at h
  · rw [hbr]; trivial
  · intro y t ht hy z hz
    rw [hbr] at hz
    cases hz
    obtain ⟨t', ht', hok⟩ := forall2_right h2 ht
    exact absurd (occ_mentions t' _ _ hok hy) (hts t' ht')

/-! ### examples and counterexamples -/

/-- The reading in which every path is the class from the root, the type parameters are what is given, and `self` is what is given. -/
def fullReading (U : Unicode) (W : World) (P : Text → Prop) (θ : Text → W.V → Prop) (slf : W.V → Prop) : Reading W :=
  { rootReading U W P θ with name := fun n v => (rootReading U W P θ).name n v ∨ (¬ P n ∧ n = "boolish".toList), slf := slf }

theorem boolish_no_path {path : List Text} (h : IsPath U "boolish".toList path) : False := by
  have h1 := className_path h
  have h2 : Verif.Yard.isConstant U "boolish".toList = false := by
    rw [show "boolish".toList = ['b', 'o', 'o', 'l', 'i', 's', 'h'] from rfl, Verif.Yard.isConstant, U.firstAscii _ (by decide)]
    rw [show Verif.Yard.asciiUpper 'b' = false by decide, Bool.false_and]
  have h3 : className U "boolish".toList = .unknown := by
    unfold className
    rw [if_neg (by decide), if_neg]
    rw [show Verif.Yard.splitPair ':' ':' (strip "boolish".toList) [] = ["boolish".toList] from rfl, List.all_cons, h2]
    simp
  rw [h3] at h1
  cases h1

/-- C71: the readings exist in every world where instances of `Array` and of `Hash` are arrays and hashes. -/
theorem c71_readings (P : Text → Prop) (θ : Text → W.V → Prop) (slf : W.V → Prop) (ha : ∀ v, W.inst (nameOf "Array") v → W.isArr v)
    (hh : ∀ v, W.inst (nameOf "Hash") v → W.isHash v) : Reads U W P θ slf (fullReading U W P θ slf) := by
  obtain ⟨h1, h2⟩ := c68_readings (U := U) P θ ha hh
  refine ⟨⟨?_, fun n args v h => .inl (h1.gen n args v h), ?_, ?_, h1.int⟩, fun n path v hn hp h => .inl (h2 n path v hn hp h), ?_, fun n v => Iff.rfl,
    fun v h => h, fun hn v => .inr ⟨hn, rfl⟩⟩
  · rintro n path v hn hp (h | ⟨-, rfl⟩)
    · exact h1.name n path v hn hp h
    · exact (boolish_no_path hp).elim
  · rintro n v hn hna (h | ⟨-, rfl⟩)
    · exact h1.array n v hn hna h
    · exact absurd hna (by unfold Rbs.isArrayName; decide)
  · rintro n v hn hna (h | ⟨-, rfl⟩)
    · exact h1.hash n v hn hna h
    · exact absurd hna (by unfold Rbs.isHashName; decide)
  · intro n v hn
    constructor
    · rintro (h | h)
      · rcases h with h | h
        · exact h.2
        · exact absurd hn h.1
      · exact absurd hn h.1
    · exact fun h => .inl (.inl ⟨hn, h⟩)

/-- A small world: literals, integers, and arrays. -/
inductive V2 where
  | lit (l : Lit)
  | int
  | arr (l : List V2)

def world2 : World where
  V := V2
  inst n v := (n = nameOf "String" ∧ ∃ l, v = .lit l ∧ l.isString = true) ∨ (n = nameOf "Symbol" ∧ ∃ l, v = .lit l ∧ l.isString = false) ∨
    (n = nameOf "Integer" ∧ v = .int) ∨ (n = nameOf "Array" ∧ ∃ l, v = .arr l)
  modInst _ _ := False
  clsRef _ _ := False
  modRef _ _ := False
  lit := .lit
  isArr v := ∃ l, v = .arr l
  elem v x := ∃ l, v = .arr l ∧ x ∈ l
  isHash _ := False
  entry _ _ _ := False
  lit_inj := by intro a b h; injection h
  string := by
    intro l
    have h1 : nameOf "String" ≠ nameOf "Symbol" := by decide
    have h2 : nameOf "String" ≠ nameOf "Integer" := by decide
    have h3 : nameOf "String" ≠ nameOf "Array" := by decide
    simp [h1, h2, h3]
  symbol := by
    intro l
    have h1 : nameOf "Symbol" ≠ nameOf "String" := by decide
    have h2 : nameOf "Symbol" ≠ nameOf "Integer" := by decide
    have h3 : nameOf "Symbol" ≠ nameOf "Array" := by decide
    simp [h1, h2, h3]
  lit_arr := by rintro l ⟨_, h⟩; cases h
  lit_hash := by intro l h; exact h

/-- `map` in this world: an array of answers of the block to elements of the array. -/
def mapIn (v : V2) : Meth world2 := fun _ blk r => ∃ l k, v = .arr l ∧ r = V2.arr k ∧ ∀ w ∈ k, ∃ x ∈ l, blk [x] w

/-- Arrays are instances of `Array` and `Enumerable`, whose type parameter stands for at least the elements; there are no hashes. -/
def instancesIn : Instances world2 := fun v c θ =>
  c ≠ nameOf "Hash" ∧ (c = nameOf "Array" ∨ c = nameOf "Enumerable" → ∃ l, v = .arr l ∧ ∀ x ∈ l, θ "Elem".toList x)

/-- `Object`, `BasicObject`, `Enumerable` and `Array` of the declarations of C70. -/
def arrayDecls : RbsAncestors.Loader := RbsAncestors.coreDecls.take 4

def objectDecl : RbsAncestors.Decl := ⟨.cls, nameOf "Object", [], some (.cls "BasicObject".toList), [], []⟩
def basicDecl : RbsAncestors.Decl := ⟨.cls, nameOf "BasicObject", [], none, [], []⟩
def enumDecl : RbsAncestors.Decl := ⟨.mod, nameOf "Enumerable", ["unchecked out Elem".toList], none, [RbsAncestors.mapMethod], []⟩
def arrDecl : RbsAncestors.Decl := ⟨.cls, nameOf "Array", ["unchecked out Elem".toList], none, [⟨nameOf "collect", false, []⟩],
  [.incl (.app "Enumerable".toList [.cls "Elem".toList]), .alias (nameOf "map") (nameOf "collect") false]⟩

theorem arrayDecls_eq : arrayDecls = [objectDecl, basicDecl, enumDecl, arrDecl] := rfl

theorem declared_cases {c : Name} {d : RbsAncestors.Decl} (h : Declared arrayDecls c d) :
    (c = nameOf "Object" ∧ d = objectDecl) ∨ (c = nameOf "BasicObject" ∧ d = basicDecl) ∨ (c = nameOf "Enumerable" ∧ d = enumDecl) ∨
      (c = nameOf "Array" ∧ d = arrDecl) := by
  obtain ⟨-, pre, post, e, rfl, -⟩ := h
  have hd : d ∈ arrayDecls := by rw [e]; simp
  rw [arrayDecls_eq] at hd
  simp only [List.mem_cons, List.not_mem_nil, or_false] at hd
  rcases hd with rfl | rfl | rfl | rfl
  · exact .inl ⟨rfl, rfl⟩
  · exact .inr (.inl ⟨rfl, rfl⟩)
  · exact .inr (.inr (.inl ⟨rfl, rfl⟩))
  · exact .inr (.inr (.inr ⟨rfl, rfl⟩))

theorem elem_param : ParamName "unchecked out Elem".toList "Elem".toList := RbsAncestors.lastWord_iff.mp rfl

theorem paramOf_iff {c : Name} {n : Text} : ParamOf arrayDecls c n ↔ (c = nameOf "Enumerable" ∨ c = nameOf "Array") ∧ n = "Elem".toList := by
  constructor
  · rintro ⟨d, s, hd, hs, hn⟩
    rcases declared_cases hd with ⟨rfl, rfl⟩ | ⟨rfl, rfl⟩ | ⟨rfl, rfl⟩ | ⟨rfl, rfl⟩
    · cases hs
    · cases hs
    · exact ⟨.inl rfl, by cases List.mem_singleton.mp hs; exact RbsAncestors.paramName_unique hn elem_param⟩
    · exact ⟨.inr rfl, by cases List.mem_singleton.mp hs; exact RbsAncestors.paramName_unique hn elem_param⟩
  · rintro ⟨rfl | rfl, rfl⟩
    · exact ⟨enumDecl, _, ⟨by decide, [objectDecl, basicDecl], [arrDecl], rfl, rfl, by decide⟩, List.mem_singleton.mpr rfl, elem_param⟩
    · exact ⟨arrDecl, _, ⟨by decide, [objectDecl, basicDecl, enumDecl], [], rfl, rfl, by decide⟩, List.mem_singleton.mpr rfl, elem_param⟩

/-- What is inherited from. -/
theorem inherit_cases {c : Name} {d : RbsAncestors.Decl} (h : Declared arrayDecls c d) {ts us : List Rbs} (hi : RbsAncestors.Includes d.members ts)
    (hu : RbsAncestors.Super d us) {t : Rbs} (ht : t ∈ ts ++ us) :
    t = .cls "BasicObject".toList ∨ t = .cls "Object".toList ∨ (c = nameOf "Array" ∧ t = .app "Enumerable".toList [.cls "Elem".toList]) := by
  rcases List.mem_append.mp ht with ht | ht
  · rcases declared_cases h with ⟨rfl, rfl⟩ | ⟨rfl, rfl⟩ | ⟨rfl, rfl⟩ | ⟨rfl, rfl⟩
    · cases hi; cases ht
    · cases hi; cases ht
    · cases hi; cases ht
    · cases hi with
      | skip h _ => exact absurd rfl (h _)
      | here hi =>
        cases hi with
        | skip _ hi => cases hi; cases List.mem_singleton.mp ht; exact .inr (.inr ⟨rfl, rfl⟩)
  · cases hu with
    | some _ hs =>
      cases List.mem_singleton.mp ht
      rcases declared_cases h with ⟨rfl, rfl⟩ | ⟨rfl, rfl⟩ | ⟨rfl, rfl⟩ | ⟨rfl, rfl⟩ <;> cases hs
      exact .inl rfl
    | object => exact .inr (.inl (List.mem_singleton.mp ht))
    | basic => cases ht
    | mod => cases ht

def scopesIn (U : Unicode) : Scopes world2 := fun c θ => fullReading U world2 (ParamOf arrayDecls c) θ (fun _ => True)

theorem world2_array {v : world2.V} (h : world2.inst (nameOf "Array") v) : world2.isArr v := by
  have h1 : nameOf "Array" ≠ nameOf "String" := by decide
  have h2 : nameOf "Array" ≠ nameOf "Symbol" := by decide
  have h3 : nameOf "Array" ≠ nameOf "Integer" := by decide
  rcases (show _ ∨ _ ∨ _ ∨ _ from h) with h | h | h | h
  exacts [absurd h.1 h1, absurd h.1 h2, absurd h.1 h3, h.2]

theorem world2_hash {v : world2.V} (h : world2.inst (nameOf "Hash") v) : world2.isHash v := by
  have h1 : nameOf "Hash" ≠ nameOf "String" := by decide
  have h2 : nameOf "Hash" ≠ nameOf "Symbol" := by decide
  have h3 : nameOf "Hash" ≠ nameOf "Integer" := by decide
  have h4 : nameOf "Hash" ≠ nameOf "Array" := by decide
  rcases (show _ ∨ _ ∨ _ ∨ _ from h) with h | h | h | h
  exacts [absurd h.1 h1, absurd h.1 h2, absurd h.1 h3, absurd h.1 h4]

theorem reads2 (P : Text → Prop) (θ : Text → world2.V → Prop) (slf : world2.V → Prop) : Reads U world2 P θ slf (fullReading U world2 P θ slf) :=
  c71_readings P θ slf (fun _ => world2_array) (fun _ => world2_hash)

theorem core2 : Core world2 arrayDecls instancesIn := by
  refine ⟨?_, ?_, ?_, ?_⟩
  · rintro v d ⟨l, rfl⟩ -
    exact ⟨fun _ x => x ∈ l, ⟨by decide, fun _ => ⟨l, rfl, fun x hx => hx⟩⟩, fun s p x _ _ hx => ⟨l, rfl, hx⟩⟩
  · intro v d h; exact h.elim
  · intro l
    refine ⟨fun _ _ => True, ?_, ?_⟩
    · split <;> decide
    · split <;> rintro (h | h) <;> exact absurd h (by decide)
  · intro n v d h hd
    refine ⟨fun _ _ => True, ?_, ?_⟩
    · rcases declared_cases hd with ⟨rfl, rfl⟩ | ⟨rfl, rfl⟩ | ⟨rfl, rfl⟩ | ⟨rfl, rfl⟩ <;> decide
    · rintro (rfl | rfl)
      · obtain ⟨l, rfl⟩ := world2_array h; exact ⟨l, rfl, fun _ _ => trivial⟩
      · rcases (show _ ∨ _ ∨ _ ∨ _ from h) with h | h | h | h <;> exact absurd h.1 (by decide)

theorem scoped2 : Scoped world2 U arrayDecls (scopesIn U) := by
  intro c θ
  have h := reads2 (U := U) (ParamOf arrayDecls c) θ (fun _ => True)
  exact ⟨h.rooted, fun n v hn hv => (h.name n v hn).mp hv, fun n v hv => (h.var n v).mp hv⟩

theorem inherited2 : Inherited world2 arrayDecls instancesIn (scopesIn U) := by
  intro v c θ d ts us t c' d' hv hd hi hu ht hn hd'
  refine ⟨θ, ?_, ?_⟩
  · have hn' := RbsAncestors.target_iff.mpr hn
    rcases inherit_cases hd hi hu ht with rfl | rfl | ⟨rfl, rfl⟩
    · cases (show some (nameOf "BasicObject") = some c' from hn')
      exact ⟨by decide, by rintro (h | h) <;> exact absurd h (by decide)⟩
    · cases (show some (nameOf "Object") = some c' from hn')
      exact ⟨by decide, by rintro (h | h) <;> exact absurd h (by decide)⟩
    · cases (show some (nameOf "Enumerable") = some c' from hn')
      exact ⟨by decide, fun _ => hv.2 (.inl rfl)⟩
  · intro n args i s p a e hs hp ha x hx
    rcases inherit_cases hd hi hu ht with rfl | rfl | ⟨rfl, rfl⟩
    · cases e
    · cases e
    · cases e
      have : i = 0 := by cases i with
        | zero => rfl
        | succ i => simp at ha
      subst this
      cases ha
      refine .cls (((reads2 (U := U) _ θ _).name _ x (paramOf_iff.mpr ⟨.inr rfl, rfl⟩)).mpr ?_)
      have hpe : p = "Elem".toList := by
        rcases declared_cases hd' with ⟨rfl, rfl⟩ | ⟨rfl, rfl⟩ | ⟨rfl, rfl⟩ | ⟨rfl, rfl⟩ <;> cases hs <;>
          exact RbsAncestors.paramName_unique hp elem_param
      rw [← hpe]; exact hx

theorem plain2 : Plain arrayDecls := by
  intro c d ts us t n args hd hi hu ht e a ha
  rcases inherit_cases hd hi hu ht with rfl | rfl | ⟨rfl, rfl⟩
  · cases e
  · cases e
  · cases e
    cases List.mem_singleton.mp ha
    exact .cls Iff.rfl

def tElemT : Text := "Elem".toList
def tUT : Text := "U".toList
def mapOverload : Overload := ⟨[tUT], [], .app "::Array".toList [.cls tUT], some ([.cls tElemT], .cls tUT)⟩
def intT : Ty := .cls (nameOf "Integer")

theorem map_owner : ownerOf U arrayDecls (.array [intT]) (nameOf "map") =
    .ok ⟨nameOf "Enumerable", ["unchecked out Elem".toList], RbsAncestors.mapMethod, [(tElemT, intT)]⟩ := rfl

theorem map_works {v : world2.V} (slf : world2.V → Prop) :
    Works U arrayDecls instancesIn slf (nameOf "Enumerable") RbsAncestors.mapMethod v (mapIn v) := by
  intro o ho b own hb hown θ ⟨θ0, hθ0, hle⟩
  cases (show o = mapOverload from List.mem_singleton.mp ho)
  cases hb
  have : own = [tUT] := by
    have h1 := lastWords_iff.mpr hown
    cases (show Out.ok [tUT] = Out.ok own from h1)
    rfl
  subst this
  have hR := reads2 (U := U) (fun n => ParamOf arrayDecls (nameOf "Enumerable") n ∨ n ∈ [tUT]) θ slf
  refine ⟨_, hR, ?_⟩
  rintro args blk r - hblk ⟨l, k, rfl, rfl, hk⟩
  refine .array (.inr rfl) ⟨k, rfl⟩ ?_
  rintro w ⟨k', e, hw⟩
  cases e
  obtain ⟨x, hx, hw⟩ := hk w hw
  refine hblk [x] w (.cons (.cls ((hR.name _ _ (.inl (paramOf_iff.mpr ⟨.inl rfl, rfl⟩))).mpr ?_)) .nil) hw
  obtain ⟨l', e, hl⟩ := hθ0.2 (.inr rfl)
  cases e
  exact hle _ (paramOf_iff.mpr ⟨.inl rfl, rfl⟩) x (hl x hx)

/-- C71: a concrete case: what `[1, 1].map { … }` returns if the block answers with strings is an array of strings. -/
theorem c71_example (U : Unicode) : ∃ p, prepareRbs U arrayDecls (.array [intT]) (nameOf "map") [] = .ok p ∧ p.blockParams = [intT] ∧
    finish p stringTy none = .ok (.array [stringTy]) ∧
    ∀ blk r, (∀ vs w, List.Forall₂ (Desc world2) [intT] vs → blk vs w → Desc world2 stringTy w) → mapIn (.arr [.int, .int]) [] blk r →
      Desc world2 (.array [stringTy]) r := by
  have hp : ∃ p, prepareRbs U arrayDecls (.array [intT]) (nameOf "map") [] = .ok p ∧ p.blockParams = [intT] ∧
      finish p stringTy none = .ok (.array [stringTy]) := ⟨_, rfl, rfl, rfl⟩
  obtain ⟨p, h1, h2, h3⟩ := hp
  refine ⟨p, h1, h2, h3, fun blk r hblk hr => ?_⟩
  have hv : Desc world2 (.array [intT]) (V2.arr [.int, .int]) := by
    show _ ∧ _
    refine ⟨⟨_, rfl⟩, ?_⟩
    rintro x ⟨l, e, hx⟩
    cases e
    have : x = V2.int := by
      rcases List.mem_cons.mp hx with h | h
      · exact h
      · exact List.mem_singleton.mp h
    subst this
    simp only [DescAny, or_false, intT, Desc]
    exact .inr (.inr (.inl ⟨rfl, rfl⟩))
  have hno : ∀ n : Text, n ≠ tElemT → n ≠ tUT → ¬ (ParamOf arrayDecls (nameOf "Enumerable") n ∨ n ∈ [tUT]) := by
    rintro n h1 h2 (h | h)
    · exact h1 (paramOf_iff.mp h).2
    · exact h2 (List.mem_singleton.mp h)
  refine c71_generic core2 scoped2 inherited2 plain2 (.array _) hv h1 h3 map_owner (o := mapOverload) (List.mem_singleton.mpr rfl) rfl
    (ts := [.cls tElemT]) (x := tUT) rfl (own := [tUT]) (lastWords_iff.mp rfl) (List.mem_singleton.mpr rfl) ?_ ⟨?_, ?_, ?_, ?_⟩ (map_works _)
    (by rw [h2]; exact hblk) hr
  · intro t ht hm
    rw [List.mem_singleton.mp ht] at hm
    generalize e : tUT = y at hm
    cases hm
    exact absurd e (by decide)
  · refine .app (hno _ (by decide) (by decide)) (hno _ (by decide) (by decide)) (by intro s h; cases h) ?_
    intro t ht
    rw [List.mem_singleton.mp ht]
    exact .param (.inr (List.mem_singleton.mpr rfl))
  · intro t ht
    rw [List.mem_singleton.mp ht]
    exact .param (.inl (paramOf_iff.mpr ⟨.inl rfl, rfl⟩))
  · intro a ha; cases ha
  · exact .param (.inr (List.mem_singleton.mpr rfl))

/-- C71 fails for `void` as what the block answers: it is read as `nil`, so `[1].each { 2 }` gets no type. -/
theorem c71_void_block_fails :
    let L : RbsAncestors.Loader := [⟨.cls, nameOf "Array", ["unchecked out Elem".toList], none,
      [⟨nameOf "each", false, [⟨[], [], .selfTy, some ([.cls tElemT], .void)⟩]⟩], []⟩]
    ∃ p, prepareRbs U L (.array [intT]) (nameOf "each") [] = .ok p ∧ p.blockParams = [intT] ∧
      finish p intT none = .err .unsupported ∧ finish p nilTy none = .ok (.array [intT]) :=
  ⟨_, rfl, rfl, rfl, rfl⟩

/-- C71 fails for `void` as what the method returns: it is read as `nil`, but may be anything. -/
theorem c71_void_fails : template U [] 1 .void = .ok (.concrete nilTy) ∧
    ∀ R : Reading world2, Sat R .void V2.int ∧ ¬ Desc world2 nilTy V2.int := by
  refine ⟨rfl, fun R => ⟨.void, fun h => ?_⟩⟩
  rcases (show _ ∨ _ ∨ _ ∨ _ from h) with h | h | h | h <;> exact absurd h.1 (by decide)

/-- C71 fails for `bot`: it is read as any value. -/
theorem c71_bot_fails : template U [] 1 .bot = .ok .unconstrained ∧ ∀ (R : Reading W) v, ¬ Sat R .bot v := ⟨rfl, fun _ _ => nofun⟩

/-- C71 fails for a type written from the root that has the name of a type parameter. -/
theorem c71_rooted_fails : template U [tElemT] 1 (.app "::Elem".toList []) = .ok (.var (code tElemT)) := rfl

/-- C71 fails for type parameters in records: they are read as classes.  In a world with no class `Elem` the record then has no values. -/
theorem c71_record_fails : template U [tElemT] 1 (.record [("a".toList, false, .cls tElemT)]) =
      .ok (.concrete (.shape [(⟨false, code "a".toList⟩, false, .cls (nameOf "Elem"))] none false false 1)) ∧
    ∃ R, Reads U world0 (· ∈ [tElemT]) (fun _ _ => True) (fun _ => True) R ∧ Sat R (.record [("a".toList, false, .cls tElemT)]) (V0.hash [symA]) ∧
      ¬ Desc world0 (.shape [(⟨false, code "a".toList⟩, false, .cls (nameOf "Elem"))] none false false 1) (V0.hash [symA]) := by
  have hE : className U tElemT = .cls (nameOf "Elem") := ascii_class (by decide) (by decide) (by decide)
  refine ⟨?_, _, c71_readings _ _ _ ?_ ?_, ?_, ?_⟩
  · have hc : conv U (.record [("a".toList, false, .cls tElemT)]) = .shape [(⟨false, code "a".toList⟩, false, .cls (nameOf "Elem"))] none false false 1 := by
      simp only [conv, convFields, hE]
      decide +kernel
    rw [template]
    · rw [if_neg (by decide), concrete, hc, if_neg (by decide)]
    all_goals nofun
  · intro v h
    rcases (show _ ∨ _ ∨ _ ∨ _ from h) with h | h | h | h
    exacts [absurd h.1 (by decide), absurd h.1 (by decide), absurd h.1 (by decide), absurd h (by decide)]
  · intro v h
    rcases (show _ ∨ _ ∨ _ ∨ _ from h) with h | h | h | h
    exacts [absurd h.1 (by decide), absurd h.1 (by decide), absurd h.1 (by decide), absurd h (by decide)]
  · refine .record ⟨_, rfl⟩ ?_ ?_ ?_
    · intro f hf _
      cases List.mem_singleton.mp hf
      exact ⟨V0.int, [symA], symA, rfl, by simp, rfl, rfl⟩
    · intro f hf x _
      cases List.mem_singleton.mp hf
      exact .cls (.inl (.inl ⟨List.mem_singleton.mpr rfl, trivial⟩))
    · rintro k x ⟨ks, l, e, hl, rfl, -⟩
      cases e
      cases List.mem_singleton.mp hl
      exact ⟨_, List.mem_singleton.mpr rfl, rfl⟩
  · intro h
    simp only [Desc, DescFields] at h
    rcases (show _ ∨ _ ∨ _ ∨ _ from h.2.1.1.2 V0.int ⟨[symA], symA, rfl, by simp, rfl, rfl⟩) with h | h | h | h
    exacts [absurd h.1 (by decide), absurd h.1 (by decide), absurd h.1 (by decide), absurd h (by decide)]

/-- C71 fails if one overload has a type that is not supported: then no overload is used, though another one may fit the call. -/
theorem c71_overload_fails :
    (∃ g, signatures U [] [⟨[], [], .selfTy, some ([.selfTy], .untyped)⟩] = .ok [g]) ∧
    signatures U [] [⟨[], [], .selfTy, some ([.selfTy], .untyped)⟩, ⟨[], [(none, .untyped, .required)], .selfTy, some ([.tuple [.selfTy]], .untyped)⟩] =
      .err .unsupported := ⟨⟨_, rfl⟩, rfl⟩

/-- C71 fails for hashes: for `{ a: 1 }.map { |x| … }` the block is given an array of instances of classes `K` and `V`. -/
theorem c71_hash_fails : ∃ p, prepareRbs U RbsAncestors.coreDecls (.hash [symbolTy] [intT]) (nameOf "map") [] = .ok p ∧
    p.blockParams = [.array [.cls (nameOf "K"), .cls (nameOf "V")]] := by
  unfold prepareRbs
  rw [show intT = RbsAncestors.intA from rfl, RbsAncestors.c70_tuple_fails]
  exact ⟨_, rfl, rfl⟩

end Verif.RbsTemplates
