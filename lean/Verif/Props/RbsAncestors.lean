import Verif.Lemmas.RbsAncestors
import Verif.Lemmas.HigherOrder
import Verif.Props.MethodReturn
/-!
C70: methods are found where the RBS declarations say they are, for calls with a block and in the lists of all methods of a class.
-/
namespace Verif.RbsAncestors
open Verif.Types
open Verif.Yard (Text Unicode)
open Verif.RbsTypes (Rbs Reading Sat Rooted Bounded code strip convWith IsPath className_path)
open Verif.RbsTemplates (Method)
open Verif.HigherOrder (Out)
open Verif.MethodReturn (simpleName simpleName_cases simpleName_self)

variable {U : Unicode} {L : Loader} {W : World}

/-! ### the class of the receiver -/

theorem named_class {t : Ty} {n c : Name} (ht : t = .cls n ∨ t = .mod n ∨ t = .clsRef n ∨ t = .modRef n) (h : c = simpleName n) : ClassOf t c := by
  subst h
  rcases simpleName_cases n with ⟨h1, h2⟩ | ⟨pre, k, h1, h2, h3⟩
  · exact .named ht (by rw [h2]; exact h1) (.inl h2.symm)
  · exact .named ht (by rw [h3]; exact h2) (.inr ⟨pre, by rw [h3]; exact h1⟩)

theorem class_identity {recv : Ty} {c : Name} {args : List Ty} (h : identity recv = some (some (c, args))) : ClassOf recv c := by
  unfold identity at h
  split at h
  · simp only [Option.some.injEq, Prod.mk.injEq] at h; obtain ⟨rfl, -⟩ := h; exact .array _
  · simp only [Option.some.injEq, Prod.mk.injEq] at h; obtain ⟨rfl, -⟩ := h; exact .hash _ _
  · split at h
    · simp only [Option.some.injEq, Prod.mk.injEq] at h; obtain ⟨rfl, -⟩ := h; exact .shape _ _ _ _ _
    · cases h
  · rename_i l
    obtain ⟨s, l⟩ := l
    cases s
    · simp only [Option.some.injEq, Prod.mk.injEq] at h; obtain ⟨rfl, -⟩ := h; exact .symbol _
    · simp only [Option.some.injEq, Prod.mk.injEq] at h; obtain ⟨rfl, -⟩ := h; exact .string _
  all_goals first
    | (split at h
       · cases h
       · simp only [Option.some.injEq, Prod.mk.injEq] at h
         refine named_class ?_ h.1.symm
         simp)
    | cases h

/-- The class as a function. -/
def classFn : Ty → Name
  | .array _ => nameOf "Array"
  | .hash _ _ => nameOf "Hash"
  | .shape _ _ _ _ _ => nameOf "Hash"
  | .lit l => if l.isString then nameOf "String" else nameOf "Symbol"
  | .cls n => simpleName n
  | .mod n => simpleName n
  | .clsRef n => simpleName n
  | .modRef n => simpleName n
  | _ => []

theorem class_fn {t : Ty} {c : Name} (h : ClassOf t c) : classFn t = c := by
  have last : ∀ {n c : Name}, 58 ∉ c → (n = c ∨ ∃ pre, n = pre ++ 58 :: c) → simpleName n = c := by
    rintro n c hc (rfl | ⟨pre, rfl⟩)
    · exact simpleName_self hc
    · exact MethodReturn.simpleName_last hc
  cases h with
  | named ht h1 h2 => rcases ht with rfl | rfl | rfl | rfl <;> exact last h1 h2
  | _ => rfl

theorem class_unique {t : Ty} {c c' : Name} (h : ClassOf t c) (h' : ClassOf t c') : c = c' := (class_fn h).symm.trans (class_fn h')

/-! ### calls with a block -/

theorem owner_steps {recv : Ty} {m : Name} {o : Owner} (h : ownerOf U L recv m = .ok o) : ∃ c args d b V, identity recv = some (some (c, args)) ∧
    Declared L c d ∧ bindings d.params args = .ok b ∧ search U L m L.length (c, b) [] = (.ok (some o), V) := by
  unfold ownerOf at h
  split at h
  · cases h
  · cases h
  · rename_i c args hi
    split at h
    · cases h
    · rename_i ps hp
      rw [params_eq, Option.map_eq_some_iff] at hp
      obtain ⟨d, hd, rfl⟩ := hp
      obtain ⟨b, hb, h2⟩ := bind_ok.mp h
      obtain ⟨o', ho, h3⟩ := bind_ok.mp h2
      cases o' with
      | none => cases h3
      | some o' =>
        simp only [Out.ok.injEq] at h3
        subst h3
        exact ⟨c, args, d, b, (search U L m L.length (c, b) []).2, hi, node_iff.mp hd, hb, Prod.ext ho rfl⟩

theorem first_congr {α : Type} {P Q : α → Prop} (h : ∀ a, P a ↔ Q a) {l : List α} {a : α} : First P l a ↔ First Q l a := by
  have : P = Q := funext fun a => propext (h a)
  rw [this]

theorem own_some {c m : Name} : ownMethod L c m ≠ none ↔ ∃ ps x, Defines L c m ps x := by
  rw [ne_eq, own_none]
  push Not
  rfl

/-- C70: the method that is found for a call with a block is declared in the class of the receiver or in something it inherits from,
and it is the first one in the order of the ancestors, the included modules in the order they are declared in. -/
theorem c70_found {recv : Ty} {m : Name} {o : Owner} (h : ownerOf U L recv m = .ok o) : ∃ c, ClassOf recv c ∧ Reach L c o.decl ∧
    Defines L o.decl m o.params o.method ∧ ∀ l, Lin L false c l → First (fun y => ∃ ps x, Defines L y m ps x) l o.decl := by
  obtain ⟨c, args, d, b, V, hi, hd, -, hs⟩ := owner_steps h
  have hc : L.node c ≠ none := by rw [node_iff.mpr hd]; simp
  obtain ⟨h1, h2⟩ := (search_order L.length c b [] [] (Agree.refl _) (room_le _) hc).2 o V hs
  refine ⟨c, class_identity hi, ?_, own_iff.mp h2, fun l hl => ?_⟩
  · obtain ⟨l1, l2, e, -⟩ := h1
    exact (mem_order (Nat.le_refl _)).mp (by rw [e]; simp) |>.2
  · rw [order_lin (Nat.le_refl _) hl] at h1
    exact (first_congr fun _ => own_some).mp (fresh_first (by simp) h1)

/-- C70: so if only one of them declares the method, it is that one, in whatever order Ruby looks. -/
theorem c70_only {recv : Ty} {m c y : Name} {o : Owner} (h : ownerOf U L recv m = .ok o) (hc : ClassOf recv c)
    (hy : ∀ z ps x, Reach L c z → Defines L z m ps x → z = y) : o.decl = y := by
  obtain ⟨c', h1, h2, h3, -⟩ := c70_found h
  obtain rfl := class_unique hc h1
  exact hy _ _ _ h2 h3

/-- Where at most one module is included, the order does not matter. -/
theorem lin_one (h1 : ∀ c d ts, Declared L c d → Includes d.members ts → ts.length ≤ 1) {c : Name} {l : List Name} (h : Lin L true c l) : Lin L false c l := by
  refine Lin.rec (L := L) (rev := true) (motive_1 := fun c l _ => Lin L false c l) (motive_2 := fun ts l _ => LinAll L false ts l) ?_ ?_ ?_ ?_ ?_ h
  · exact fun hd => .missing hd
  · intro c d ts us l hd hi hs _ ih
    refine .node hd hi hs ?_
    have : ts.reverse = ts := by
      match ts, h1 c d ts hd hi with
      | [], _ => rfl
      | [t], _ => rfl
    simpa [this] using ih
  · exact .nil
  · exact fun hn _ _ h1 h2 => .cons hn h1 h2
  · exact fun hn _ h => .skip hn h

/-- C70: if no declaration includes more than one module, it is the method that Ruby finds. -/
theorem c70_ruby {recv : Ty} {m c : Name} {o : Owner} {l : List Name} (h : ownerOf U L recv m = .ok o) (hc : ClassOf recv c)
    (h1 : ∀ c d ts, Declared L c d → Includes d.members ts → ts.length ≤ 1) (hl : Lin L true c l) :
    First (fun y => ∃ ps x, Defines L y m ps x) l o.decl := by
  obtain ⟨c', h2, -, -, h4⟩ := c70_found h
  obtain rfl := class_unique hc h2
  exact h4 l (lin_one h1 hl)

/-! ### the bindings -/

theorem parents_iff {c : Name} {d : Decl} (hd : Declared L c d) {t : Rbs} : t ∈ parents d ↔ ∃ ts us, Includes d.members ts ∧ Super d us ∧ t ∈ ts ++ us := by
  constructor
  · intro h
    exact ⟨_, _, includes_iff.mpr rfl, (super_iff hd.1).mpr rfl, h⟩
  · rintro ⟨ts, us, h1, h2, h3⟩
    rw [includes_iff] at h1
    rw [super_iff hd.1] at h2
    subst h1 h2
    exact h3

/-- The bindings are those of the type parameters of the declaration. -/
theorem binds_params {c : Name} {d : Decl} {args : List Ty} {b : Bindings} (hd : Declared L c d) (h : bindings d.params args = .ok b) :
    (∀ n, b.get n ≠ none ↔ ParamOf L c n) ∧
    ∀ n t, b.get n = some t → ∃ (i : Nat) (s : Text), d.params[i]? = some s ∧ ParamName s n ∧ args[i]? = some t := by
  obtain ⟨h1, -, ns, h2, h3, rfl⟩ := bindings_ok.mp h
  have hlen := h2.length_eq
  have at' : ∀ (i : Nat) n, ns[i]? = some n → ∃ s, d.params[i]? = some s ∧ ParamName s n := by
    intro i n hn
    obtain ⟨hi, e⟩ := List.getElem?_eq_some_iff.mp hn
    refine ⟨d.params[i], List.getElem?_eq_getElem _, ?_⟩
    have := List.forall₂_iff_get.mp h2
    have := this.2 i (by omega) hi
    simp only [List.get_eq_getElem] at this
    rw [e] at this
    exact this
  constructor
  · intro n
    constructor
    · intro hg
      obtain ⟨t, ht⟩ := Option.ne_none_iff_exists'.mp hg
      obtain ⟨i, h4, -⟩ := (get_zip h3).mp ht
      obtain ⟨s, h5, h6⟩ := at' i n h4
      exact ⟨d, s, hd, List.mem_of_getElem? h5, h6⟩
    · rintro ⟨d', s, hd', hs, hp⟩
      obtain rfl := declared_unique hd hd'
      obtain ⟨i, hi, e⟩ := List.getElem_of_mem hs
      have hn : ns[i]? = some n := by
        have hi' : i < ns.length := by omega
        rw [List.getElem?_eq_getElem hi']
        have := (List.forall₂_iff_get.mp h2).2 i hi hi'
        simp only [List.get_eq_getElem] at this
        rw [e] at this
        rw [paramName_unique this hp]
      have ha : args[i]? = some (args[i]'(by omega)) := List.getElem?_eq_getElem _
      rw [(get_zip h3).mpr ⟨i, hn, ha⟩]
      simp
  · intro n t ht
    obtain ⟨i, h4, h5⟩ := (get_zip h3).mp ht
    obtain ⟨s, h6, h7⟩ := at' i n h4
    exact ⟨i, s, h6, h7, h5⟩

/-- The bindings describe what the type parameters stand for. -/
def Right (W : World) (L : Loader) (I : Instances W) (v : W.V) (c : Name) (b : Bindings) : Prop :=
  ∃ θ, I v c θ ∧ (∀ n, b.get n ≠ none ↔ ParamOf L c n) ∧ ∀ n t x, b.get n = some t → θ n x → Desc W t x

theorem right_step {I : Instances W} {S : Scopes W} (hS : Scoped W U L S) (hI : Inherited W L I S) (hP : Plain L) {v : W.V} {c c' : Name} {b b' : Bindings}
    {d : Decl} {t : Rbs} (hr : Right W L I v c b) (hd : Declared L c d) (ht : t ∈ parents d) (he : edge U L b t = .ok (c', b')) : Right W L I v c' b' := by
  obtain ⟨θ, h1, h2, h3⟩ := hr
  obtain ⟨ts, us, hi, hs, ht⟩ := (parents_iff hd).mp ht
  obtain ⟨htg, d', args, hd', ha, hb⟩ := edge_iff.mp he
  obtain ⟨θ', h4, h5⟩ := hI v c θ d ts us t c' d' h1 hd hi hs ht (target_iff.mp htg) hd'
  obtain ⟨h6, h7⟩ := binds_params hd' hb
  refine ⟨θ', h4, h6, fun p ty x hp hx => ?_⟩
  obtain ⟨i, s, h8, h9, h10⟩ := h7 p ty hp
  rw [List.getElem?_map, Option.map_eq_some_iff] at h10
  obtain ⟨a, h11, rfl⟩ := h10
  rcases ha with ⟨-, rfl⟩ | ⟨n, rfl⟩
  · simp at h11
  have hsat := h5 n args i s p a rfl h8 h9 h11 x hx
  obtain ⟨hR, hn, hv⟩ := hS c θ
  have hbd := hP c d ts us _ n args hd hi hs ht rfl a (List.mem_of_getElem? h11)
  have e : (fun n => b.get n ≠ none) = ParamOf L c := funext fun n => propext (h2 n)
  refine RbsTypes.convWith_sound hR ?_ a (by rw [e]; exact hbd) x hsat
  intro n' t' w hb' hw
  refine h3 n' t' w hb' ?_
  rcases hw with hw | hw
  · exact hn n' w ((h2 n').mp (by rw [hb']; simp)) hw
  · exact hv n' w hw

theorem right_start {I : Instances W} (hC : Core W L I) {recv : Ty} {v : W.V} (hv : Desc W recv v) (hr : AnInstance recv) {c : Name} {args : List Ty}
    {d : Decl} {b : Bindings} (hi : identity recv = some (some (c, args))) (hd : Declared L c d) (hb : bindings d.params args = .ok b) : Right W L I v c b := by
  obtain ⟨h6, h7⟩ := binds_params hd hb
  have hlen := (bindings_ok.mp hb).1
  have none' : args = [] → ∀ n t, b.get n = some t → False := by
    rintro rfl n t h
    obtain ⟨i, s, -, -, h⟩ := h7 n t h
    simp at h
  have hash : ∀ ks vs, Desc W (.hash ks vs) v → c = nameOf "Hash" → args = [mkUnion ks, mkUnion vs] → Right W L I v c b := by
    rintro ks vs hh rfl rfl
    simp only [Desc] at hh
    obtain ⟨θ, h1, h2⟩ := hC.hash v d hh.1 hd
    refine ⟨θ, h1, h6, fun n t x hg hx => ?_⟩
    obtain ⟨i, s, h3, h4, h5⟩ := h7 n t hg
    match hps : d.params, hlen with
    | [s1, s2], _ =>
      obtain ⟨hk, hv'⟩ := h2 s1 s2 hps
      rw [hps] at h3
      match i with
      | 0 =>
        simp only [List.getElem?_cons_zero, Option.some.injEq] at h3 h5
        subst h3 h5
        obtain ⟨y, hy⟩ := hk n x h4 hx
        exact HigherOrder.desc_union_of (hh.2 x y hy).1
      | 1 =>
        simp only [List.getElem?_cons_succ, List.getElem?_cons_zero, Option.some.injEq] at h3 h5
        subst h3 h5
        obtain ⟨y, hy⟩ := hv' n x h4 hx
        exact HigherOrder.desc_union_of (hh.2 y x hy).2
      | i + 2 => simp at h3
    | [], h => simp at h
    | [_], h => simp at h
    | _ :: _ :: _ :: _, h => simp at h
  cases hr with
  | array es =>
    simp only [identity, Option.some.injEq, Prod.mk.injEq] at hi
    obtain ⟨rfl, rfl⟩ := hi
    simp only [Desc] at hv
    obtain ⟨θ, h1, h2⟩ := hC.array v d hv.1 hd
    refine ⟨θ, h1, h6, fun n t x hg hx => ?_⟩
    obtain ⟨i, s, h3, h4, h5⟩ := h7 n t hg
    match hps : d.params, hlen with
    | [s'], _ =>
      rw [hps] at h3
      match i with
      | 0 =>
        simp only [List.getElem?_cons_zero, Option.some.injEq] at h3 h5
        subst h3 h5
        exact HigherOrder.desc_union_of (hv.2 x (h2 _ n x hps h4 hx))
      | i + 1 => simp at h3
    | [], h => simp at h
    | _ :: _ :: _, h => simp at h
  | hash ks vs =>
    simp only [identity, Option.some.injEq, Prod.mk.injEq] at hi
    exact hash ks vs hv hi.1.symm hi.2.symm
  | shape fs r o z dd =>
    simp only [identity] at hi
    split at hi
    · rename_i ks vs hg
      simp only [Option.some.injEq, Prod.mk.injEq] at hi
      exact hash ks vs (c43_generic_hash_sound hg hv) hi.1.symm hi.2.symm
    · cases hi
  | lit l =>
    simp only [identity, Option.some.injEq, Prod.mk.injEq] at hi
    obtain ⟨rfl, rfl⟩ := hi
    simp only [Desc] at hv
    subst hv
    obtain ⟨θ, h1⟩ := hC.lit l
    exact ⟨θ, h1, h6, fun n t x hg _ => (none' rfl n t hg).elim⟩
  | @cls n hn =>
    simp only [identity] at hi
    split at hi
    · cases hi
    · simp only [Option.some.injEq, Prod.mk.injEq] at hi
      obtain ⟨rfl, rfl⟩ := hi
      rw [simpleName_self hn] at hd ⊢
      simp only [Desc] at hv
      obtain ⟨θ, h1⟩ := hC.inst n v d hv hd
      exact ⟨θ, h1, by rw [simpleName_self hn] at h6; exact h6, fun n t x hg _ => (none' rfl n t hg).elim⟩

/-- C70: the bindings that come with the method are those of the type parameters of the declaration it was found in, and each
describes what the type parameter stands for, for every value of the receiver's type. -/
theorem c70_bindings {I : Instances W} {S : Scopes W} (hC : Core W L I) (hS : Scoped W U L S) (hI : Inherited W L I S) (hP : Plain L)
    {recv : Ty} {m : Name} {o : Owner} (h : ownerOf U L recv m = .ok o) (hr : AnInstance recv) {v : W.V} (hv : Desc W recv v) :
    ∃ θ, I v o.decl θ ∧ (∀ n, o.binds.get n ≠ none ↔ ParamOf L o.decl n) ∧ ∀ n t x, o.binds.get n = some t → θ n x → Desc W t x := by
  obtain ⟨c, args, d, b, V, hi, hd, hb, hs⟩ := owner_steps h
  exact search_inv (Q := Right W L I v) (fun c b d t c' b' hq hd ht he => right_step hS hI hP hq hd ht he) L.length c b [] V o
    (right_start hC hv hr hi hd hb) hs

/-! ### no errors -/

theorem sure_known {P : Text → Prop} {b : Bindings} (hb : ∀ n, P n → ∃ t, b.get n = some t) (hk : ∀ n t, b.get n = some t → hasUnknown t = false) {t : Rbs}
    (h : Sure U P t) : hasUnknown (convWith U b.get t) = false := by
  have bound : ∀ n t, b.get n = some t → hasUnknown (convWith U b.get (.cls n)) = false := by
    intro n t e
    rw [RbsTypes.convWith, e]
    exact hk n t e
  induction h with
  | @param n hp => obtain ⟨t, e⟩ := hb n hp; exact bound n t e
  | @cls n path hp =>
    cases e : b.get n with
    | some t => exact bound n t e
    | none => rw [RbsTypes.convWith, e]; simp only; rw [className_path hp]; rfl
  | @array t _ ih =>
    rw [RbsTypes.convWith_app (by simp)]
    simp only [List.map_cons, List.map_nil]
    rw [show RbsTypes.appTy U (strip "Array".toList) [convWith U b.get t] = .array [convWith U b.get t] from rfl]
    simp [hasUnknown, hasUnknownList, ih]
  | @hash k t _ _ ih1 ih2 =>
    rw [RbsTypes.convWith_app (by simp)]
    simp only [List.map_cons, List.map_nil]
    rw [show RbsTypes.appTy U (strip "Hash".toList) [convWith U b.get k, convWith U b.get t] = .hash [convWith U b.get k] [convWith U b.get t] from rfl]
    simp [hasUnknown, hasUnknownList, ih1, ih2]

/-- The receiver's type gives every type parameter a known type. -/
inductive Ready (d : Decl) : Ty → Prop
  | array {es} : d.params.length = 1 → hasUnknown (mkUnion es) = false → Ready d (.array es)
  | hash {ks vs} : d.params.length = 2 → hasUnknown (mkUnion ks) = false → hasUnknown (mkUnion vs) = false → Ready d (.hash ks vs)
  | lit {l} : d.params = [] → Ready d (.lit l)
  | named {t n} : t = .cls n ∨ t = .mod n ∨ t = .clsRef n ∨ t = .modRef n → n ≠ [] → d.params = [] → Ready d t

theorem ready_identity {d : Decl} {recv : Ty} {c : Name} (hr : Ready d recv) (hc : ClassOf recv c) : ∃ args, identity recv = some (some (c, args)) ∧
    d.params.length = args.length ∧ ∀ a ∈ args, hasUnknown a = false := by
  have key : ∀ args c', identity recv = some (some (c', args)) → d.params.length = args.length ∧ (∀ a ∈ args, hasUnknown a = false) →
      ∃ args, identity recv = some (some (c, args)) ∧ d.params.length = args.length ∧ ∀ a ∈ args, hasUnknown a = false := by
    intro args c' h1 h2
    obtain rfl := class_unique hc (class_identity h1)
    exact ⟨args, h1, h2⟩
  cases hr with
  | @array es h1 h2 => exact key _ _ rfl ⟨h1, by simpa using h2⟩
  | @hash ks vs h1 h2 h3 => exact key _ _ rfl ⟨h1, by simp [h2, h3]⟩
  | @lit l h1 => exact key _ _ rfl ⟨by simp [h1], by simp⟩
  | named ht hn h1 =>
    rename_i n
    refine key [] (simpleName n) ?_ ⟨by simp [h1], by simp⟩
    rcases ht with rfl | rfl | rfl | rfl <;> simp [identity, hn]

/-- C70: if all that is inherited from is declared, with as many type parameters as there are arguments, then a method is found
exactly if the class of the receiver or something it inherits from declares one. -/
theorem c70_complete (hL : Complete U L) {recv : Ty} {m c : Name} {d : Decl} (hc : ClassOf recv c) (hd : Declared L c d) (hr : Ready d recv) :
    (∃ o, ownerOf U L recv m = .ok o) ↔ ∃ y ps x, Reach L c y ∧ Defines L y m ps x := by
  obtain ⟨args, hi, hlen, hk⟩ := ready_identity hr hc
  constructor
  · rintro ⟨o, h⟩
    obtain ⟨c', h1, h2, h3, -⟩ := c70_found h
    obtain rfl := class_unique hc h1
    exact ⟨_, _, _, h2, h3⟩
  · rintro ⟨y, ps, x, hy, hx⟩
    obtain ⟨ns, hns, hnd⟩ := hL.names c d hd
    have hb : bindings d.params args = .ok (ns.zip args) := bindings_ok.mpr ⟨hlen, hk, ns, hns, hnd, rfl⟩
    let Q : Name → Bindings → Prop := fun c b => (∃ d, Declared L c d) ∧ (∀ n, ParamOf L c n → ∃ t, b.get n = some t) ∧ ∀ n t, b.get n = some t → hasUnknown t = false
    have hQ : ∀ c d args b, Declared L c d → bindings d.params args = .ok b → Q c b := by
      intro c d args b hd hb
      obtain ⟨h1, h2⟩ := binds_params hd hb
      refine ⟨⟨d, hd⟩, fun n hn => Option.ne_none_iff_exists'.mp ((h1 n).mpr hn), fun n t ht => ?_⟩
      obtain ⟨i, s, -, -, h3⟩ := h2 n t ht
      exact (bindings_ok.mp hb).2.1 t (List.mem_of_getElem? h3)
    have step : ∀ c b, Q c b → ∀ e ∈ edges U L c b, ∃ c' b', e = .ok (c', b') ∧ Q c' b' := by
      rintro c b ⟨⟨d, hd⟩, hq1, hq2⟩ e he
      have al : ∀ {es ts}, Along U L b es ts → ∀ e ∈ es, ∃ t ∈ ts, e = edge U L b t := by
        intro es ts h
        induction h with
        | nil => simp
        | edge _ ih =>
          intro e he
          rcases List.mem_cons.mp he with rfl | he
          · exact ⟨_, List.mem_cons_self, rfl⟩
          · obtain ⟨t, ht, e'⟩ := ih e he
            exact ⟨t, List.mem_cons_of_mem _ ht, e'⟩
        | drop _ _ ih =>
          intro e he
          obtain ⟨t, ht, e'⟩ := ih e he
          exact ⟨t, List.mem_cons_of_mem _ ht, e'⟩
      obtain ⟨t, ht, rfl⟩ := al (along_edges (U := U) hd b) e he
      obtain ⟨ts, us, h1, h2, h3⟩ := (parents_iff hd).mp ht
      obtain ⟨c', d', h4, h5, n, as, h6, h7, h8⟩ := hL.edges c d ts us t hd h1 h2 h3
      obtain ⟨ns', hns', hnd'⟩ := hL.names c' d' h5
      have hb' : bindings d'.params (as.map (convWith U b.get)) = .ok (ns'.zip (as.map (convWith U b.get))) := by
        refine bindings_ok.mpr ⟨by simp [h7], fun a ha => ?_, ns', hns', hnd', rfl⟩
        obtain ⟨r, hr, rfl⟩ := List.mem_map.mp ha
        exact sure_known hq1 hq2 (h8 r hr)
      refine ⟨c', _, edge_iff.mpr ⟨target_iff.mpr h4, d', as, h5, ?_, hb'⟩, hQ c' d' _ _ h5 hb'⟩
      rcases h6 with ⟨rfl, rfl⟩ | rfl
      · exact .inl ⟨⟨n, rfl⟩, rfl⟩
      · exact .inr ⟨n, rfl⟩
    obtain ⟨o, V, ho⟩ := search_total (m := m) step L.length c (ns.zip args) [] (hQ c d args _ hd hb)
    have hcn : L.node c ≠ none := by rw [node_iff.mpr hd]; simp
    cases o with
    | none =>
      have := (search_order L.length c (ns.zip args) [] [] (Agree.refl _) (room_le _) hcn).1 V ho
      have hyn : L.node y ≠ none := by obtain ⟨e, he, -⟩ := hx; rw [node_iff.mpr he]; simp
      exact absurd hx (own_none.mp (this.2 y ((mem_order (Nat.le_refl _)).mpr ⟨hyn, hy⟩)) ps x)
    | some o =>
      refine ⟨o, ?_⟩
      unfold ownerOf
      rw [hi]
      simp only
      rw [params_eq, node_iff.mpr hd]
      simp only [Option.map_some]
      rw [hb]
      simp only [HigherOrder.Out.bind]
      rw [ho]

/-! ### all methods of a class -/

/-- C70: every name is listed once. -/
theorem c70_once (c : Name) (incl : Bool) : ((classMethods U L c incl).map (·.name)).Nodup := by
  rw [classMethods_eq]
  exact (infos_spec _ (fun y hy => ((mem_order (Nat.le_succ _)).mp hy).1) [] (by simp)).1

theorem first_exists {α : Type} {P : α → Prop} : ∀ {l : List α} {a : α}, a ∈ l → P a → ∃ b, First P l b
  | x :: l, a, ha, hp => by
    by_cases hx : P x
    · exact ⟨x, [], l, rfl, hx, by simp⟩
    · rcases List.mem_cons.mp ha with rfl | ha
      · exact absurd hp hx
      · obtain ⟨b, l1, l2, e, h1, h2⟩ := first_exists ha hp
        refine ⟨b, x :: l1, l2, by rw [e]; rfl, h1, fun y hy => ?_⟩
        rcases List.mem_cons.mp hy with rfl | hy
        · exact hx
        · exact h2 y hy

theorem first_unique {α : Type} {P : α → Prop} : ∀ {l : List α} {a b : α}, First P l a → First P l b → a = b
  | l, a, b, ⟨l1, l2, e1, h1, h2⟩, ⟨l3, l4, e3, h3, h4⟩ => by
    rw [e1] at e3
    rcases List.append_eq_append_iff.mp e3 with ⟨l5, e4, e5⟩ | ⟨l5, e4, e5⟩
    · cases l5 with
      | nil => simp at e5; exact e5.1
      | cons z l5 =>
        simp only [List.cons_append, List.cons.injEq] at e5
        obtain ⟨rfl, -⟩ := e5
        exact absurd h1 (h4 a (by rw [e4]; simp))
    · cases l5 with
      | nil => simp at e5; exact e5.1.symm
      | cons z l5 =>
        simp only [List.cons_append, List.cons.injEq] at e5
        obtain ⟨rfl, -⟩ := e5
        exact absurd h3 (h2 b (by rw [e4]; simp))

/-- C70: exactly those names are listed that the class or something it inherits from has a method or an alias of. -/
theorem c70_listed (c m : Name) (incl : Bool) : m ∈ (classMethods U L c incl).map (·.name) ↔ ∃ y, Reach L c y ∧ Offers L incl y m := by
  rw [classMethods_eq]
  have hs := (infos_spec (U := U) (incl := incl) (order L (L.length + 1) [] c) (fun y hy => ((mem_order (Nat.le_succ _)).mp hy).1) [] (by simp)).2
  rw [List.mem_map]
  constructor
  · rintro ⟨i, hi, rfl⟩
    rcases (hs i).mp hi with hi | ⟨-, y, d, ⟨l1, l2, e, h1, -⟩, -⟩
    · cases hi
    · exact ⟨y, ((mem_order (Nat.le_succ _)).mp (by rw [e]; simp)).2, h1⟩
  · rintro ⟨y, hy, ho⟩
    have hyn : L.node y ≠ none := by obtain ⟨e, he, -⟩ := ho; rw [node_iff.mpr he]; simp
    obtain ⟨z, hz⟩ := first_exists (P := fun y => Offers L incl y m) ((mem_order (Nat.le_succ L.length)).mpr ⟨hyn, hy⟩) ho
    have hz' := hz
    obtain ⟨l1, l2, -, h1, -⟩ := hz'
    obtain ⟨d, i, hd, hi⟩ := (offers_says (U := U)).mp h1
    have e := says_name hi
    exact ⟨i, (hs i).mpr (.inr ⟨by simp, z, d, by rw [e]; exact hz, hd, by rw [e]; exact hi⟩), e⟩

/-- C70: and it is listed with what the first of them says, in the order of the ancestors, the included modules in the order they
are declared in. -/
theorem c70_entry {c : Name} {l : List Name} (hl : Lin L false c l) (incl : Bool) (i : Info) : i ∈ classMethods U L c incl ↔
    ∃ y d, First (fun y => Offers L incl y i.name) l y ∧ Declared L y d ∧ Says U incl d i.name i := by
  rw [classMethods_eq]
  have hs := (infos_spec (U := U) (incl := incl) (order L (L.length + 1) [] c) (fun y hy => ((mem_order (Nat.le_succ _)).mp hy).1) [] (by simp)).2
  rw [hs, order_lin (Nat.le_succ _) hl]
  simp only [List.not_mem_nil, List.map_nil, not_false_eq_true, true_and, false_or]
  refine exists_congr fun y => exists_congr fun d => and_congr_left fun _ => ⟨fresh_first (by simp), fun hf => ?_⟩
  have hf' := hf
  obtain ⟨l1, l2, e, h1, -⟩ := hf'
  have hy : y ∈ fresh [] l := by
    rw [← order_lin (Nat.le_refl _) hl, mem_order (Nat.le_refl _), ← (lin_spec hl).2, e]
    simp
  obtain ⟨z, hz⟩ := first_exists (P := fun y => Offers L incl y i.name) hy h1
  rwa [first_unique hf (fresh_first (by simp) hz)]

/-- A cache that was empty and then filled by any queries. -/
inductive Filled (L : Loader) : Cache → Prop
  | empty : Filled L []
  | query {K} (c m incl) : Filled L K → Filled L (methodExists L c m incl K).2

theorem mem_declNames {incl : Bool} {d : Decl} {m : Name} : m ∈ declNames incl d ↔ (∃ x ∈ d.methods, x.name = m ∧ (x.singleton = true → incl = true)) ∨
    ∃ old s, Member.alias m old s ∈ d.members ∧ (s = true → incl = true) := by
  unfold declNames
  rw [List.mem_append, List.mem_map, List.mem_filterMap]
  refine or_congr ⟨?_, ?_⟩ ⟨?_, ?_⟩
  · rintro ⟨x, hx, rfl⟩
    obtain ⟨h1, h2⟩ := List.mem_filter.mp hx
    exact ⟨x, h1, rfl, fun h => by simpa [h] using h2⟩
  · rintro ⟨x, hx, rfl, h⟩
    refine ⟨x, List.mem_filter.mpr ⟨hx, ?_⟩, rfl⟩
    cases hs : x.singleton
    · rfl
    · simp [h hs]
  · rintro ⟨x, hx, h⟩
    cases x with
    | «alias» new old s =>
      simp only at h
      split at h
      · rename_i hs
        simp only [Option.some.injEq] at h
        subst h
        exact ⟨old, s, hx, fun h' => by simpa [h'] using hs⟩
      · cases h
    | _ => cases h
  · rintro ⟨old, s, hx, h⟩
    refine ⟨_, hx, ?_⟩
    simp only
    rw [if_pos]
    cases s
    · rfl
    · simp [h rfl]

theorem walkNames_iff {incl : Bool} {c m : Name} : m ∈ (walkNames L incl (L.length + 1) c ([], [])).1 ↔ ∃ y, Reach L c y ∧ Offers L incl y m := by
  rw [walkNames_mem]
  refine exists_congr fun y => ?_
  rw [mem_order (Nat.le_succ _)]
  constructor
  · rintro ⟨⟨h1, h2⟩, h3⟩
    obtain ⟨d, hd⟩ := Option.ne_none_iff_exists'.mp h1
    rw [hd] at h3
    exact ⟨h2, d, node_iff.mp hd, mem_declNames.mp h3⟩
  · rintro ⟨h1, d, hd, h2⟩
    rw [node_iff.mpr hd]
    exact ⟨⟨by simp, h1⟩, mem_declNames.mpr h2⟩

theorem catalogue_spec {K : Cache} (hK : ∀ e ∈ K, ∀ m, m ∈ e.2 ↔ ∃ y, Reach L e.1.2 y ∧ Offers L e.1.1 y m) (c : Name) (incl : Bool) :
    (∀ m, m ∈ (catalogue L c incl K).1 ↔ ∃ y, Reach L c y ∧ Offers L incl y m) ∧
    ∀ e ∈ (catalogue L c incl K).2, ∀ m, m ∈ e.2 ↔ ∃ y, Reach L e.1.2 y ∧ Offers L e.1.1 y m := by
  unfold catalogue
  split
  · rename_i e he
    have h1 := List.mem_of_find?_eq_some he
    have h2 := List.find?_some he
    simp only [decide_eq_true_eq] at h2
    have := hK e h1
    rw [h2] at this
    exact ⟨this, hK⟩
  · split
    · rename_i hn
      refine ⟨fun m => ?_, hK⟩
      simp only [List.not_mem_nil, false_iff, not_exists, not_and]
      intro y hy ho
      rcases Relation.ReflTransGen.cases_head hy with rfl | ⟨z, hz, -⟩
      · obtain ⟨d, hd, -⟩ := ho
        rw [node_iff.mpr hd] at hn
        cases hn
      · rw [inherits_iff, nextNames_none hn] at hz
        cases hz
    · refine ⟨fun m => walkNames_iff, fun e he => ?_⟩
      rcases List.mem_cons.mp he with rfl | he
      · exact fun m => walkNames_iff
      · exact hK e he

/-- C70: whether a class has a method is answered from the declarations alone, whatever was asked before. -/
theorem c70_exists {K : Cache} (hK : Filled L K) (c m : Name) (incl : Bool) :
    (methodExists L c m incl K).1 = true ↔ ∃ y, Reach L c y ∧ Offers L incl y m := by
  have : ∀ e ∈ K, ∀ m, m ∈ e.2 ↔ ∃ y, Reach L e.1.2 y ∧ Offers L e.1.1 y m := by
    induction hK with
    | empty => simp
    | query c m incl _ ih => exact (catalogue_spec ih c incl).2
  unfold methodExists
  simp only [decide_eq_true_eq]
  exact (catalogue_spec this c incl).1 m

/-! ### examples and counterexamples -/

def intA : Ty := .cls (nameOf "Integer")
def tElemA : Text := "Elem".toList
def tKA : Text := "K".toList
def tVA : Text := "V".toList

/-- `def map: [U] () { (Elem arg0) -> U } -> ::Array[U]`. -/
def mapMethod : Method := ⟨nameOf "map", false, [⟨["U".toList], [], .app "::Array".toList [.cls "U".toList], some ([.cls tElemA], .cls "U".toList)⟩]⟩
def filterMethod : Method := ⟨nameOf "filter", false, [⟨[], [], .app "::Hash".toList [.cls tKA, .cls tVA], some ([.cls tKA, .cls tVA], .cls "boolish".toList)⟩]⟩

/-- Parts of core/enumerable.rbs, core/array.rbs (L549 `include Enumerable[Elem]`, L2405 `alias map collect`) and core/hash.rbs (L490
`include Enumerable[[ K, V ]]`, L1497 `alias select filter`). -/
def coreDecls : Loader :=
  [⟨.cls, nameOf "Object", [], some (.cls "BasicObject".toList), [], []⟩,
   ⟨.cls, nameOf "BasicObject", [], none, [], []⟩,
   ⟨.mod, nameOf "Enumerable", ["unchecked out Elem".toList], none, [mapMethod], []⟩,
   ⟨.cls, nameOf "Array", ["unchecked out Elem".toList], none, [⟨nameOf "collect", false, []⟩],
     [.incl (.app "Enumerable".toList [.cls tElemA]), .alias (nameOf "map") (nameOf "collect") false]⟩,
   ⟨.cls, nameOf "Hash", ["unchecked out K".toList, "unchecked out V".toList], some (.cls "Object".toList), [filterMethod],
     [.incl (.app "Enumerable".toList [.tuple [.cls tKA, .cls tVA]]), .alias (nameOf "select") (nameOf "filter") false]⟩]

/-- C70: a concrete case: `[1].map { … }` is the `map` of `Enumerable`, with `Elem` an integer. -/
theorem c70_example : ownerOf U coreDecls (.array [intA]) (nameOf "map") =
    .ok ⟨nameOf "Enumerable", ["unchecked out Elem".toList], mapMethod, [(tElemA, intA)]⟩ := by
  rfl

/-- C70: the same case, from the declarations: `Array` and then `Enumerable` are the ancestors that declare methods. -/
theorem c70_example_spec (U : Unicode) : ClassOf (.array [intA]) (nameOf "Array") ∧ Reach coreDecls (nameOf "Array") (nameOf "Enumerable") ∧
    Defines coreDecls (nameOf "Enumerable") (nameOf "map") ["unchecked out Elem".toList] mapMethod := by
  obtain ⟨c, h1, h2, h3, -⟩ := c70_found (U := U) (L := coreDecls) c70_example
  obtain rfl := class_unique (ClassOf.array [intA]) h1
  exact ⟨h1, h2, h3⟩

/-- C70: another one: the list of all methods of `Hash` has its own methods, aliases, and those of `Enumerable`. -/
theorem c70_example_listed : (classMethods U coreDecls (nameOf "Hash") false).map (·.name) = [nameOf "filter", nameOf "select", nameOf "map"] := by
  rfl

/-- C70 fails below a tuple: for `{ a: 1 }.map { … }` the elements of the hash, declared as `[ K, V ]`, are arrays of the classes `K`
and `V`. -/
theorem c70_tuple_fails : ownerOf U coreDecls (.hash [symbolTy] [intA]) (nameOf "map") =
    .ok ⟨nameOf "Enumerable", ["unchecked out Elem".toList], mapMethod, [(tElemA, .array [.cls (nameOf "K"), .cls (nameOf "V")])]⟩ := by
  have hK : RbsTypes.className U tKA = .cls (nameOf "K") := RbsTypes.ascii_class (by decide) (by decide) (by decide)
  have hV : RbsTypes.className U tVA = .cls (nameOf "V") := RbsTypes.ascii_class (by decide) (by decide) (by decide)
  have he : ∀ b, edge U coreDecls b (.app "Enumerable".toList [.tuple [.cls tKA, .cls tVA]]) =
      .ok (nameOf "Enumerable", [(tElemA, .array [.cls (nameOf "K"), .cls (nameOf "V")])]) := by
    intro b
    refine edge_iff.mpr ⟨rfl, ⟨.mod, nameOf "Enumerable", ["unchecked out Elem".toList], none, [mapMethod], []⟩, [.tuple [.cls tKA, .cls tVA]],
      ⟨by decide, coreDecls.take 2, coreDecls.drop 3, rfl, rfl, by decide⟩, .inr ⟨_, rfl⟩, ?_⟩
    have hm : members [Ty.cls (nameOf "K"), Ty.cls (nameOf "V")] = [Ty.cls (nameOf "K"), Ty.cls (nameOf "V")] := by decide +kernel
    simp only [List.map_cons, List.map_nil, RbsTypes.convWith, RbsTypes.conv, RbsTypes.convList, hK, hV, hm]
    rfl
  have h1 : ∀ b V, nameOf "Enumerable" ∉ V → search U coreDecls (nameOf "map") 4 (nameOf "Enumerable", b) V =
      (.ok (some ⟨nameOf "Enumerable", ["unchecked out Elem".toList], mapMethod, b⟩), nameOf "Enumerable" :: V) := by
    intro b V hV
    rw [search, if_neg hV]
    rfl
  have hi : identity (.hash [symbolTy] [intA]) = some (some (nameOf "Hash", [symbolTy, intA])) := rfl
  have hp : coreDecls.params (nameOf "Hash") = some ["unchecked out K".toList, "unchecked out V".toList] := rfl
  have hb : bindings ["unchecked out K".toList, "unchecked out V".toList] [symbolTy, intA] = .ok [(tKA, symbolTy), (tVA, intA)] := rfl
  have hs : search U coreDecls (nameOf "map") coreDecls.length (nameOf "Hash", [(tKA, symbolTy), (tVA, intA)]) [] =
      (.ok (some ⟨nameOf "Enumerable", ["unchecked out Elem".toList], mapMethod, [(tElemA, .array [.cls (nameOf "K"), .cls (nameOf "V")])]⟩),
        [nameOf "Enumerable", nameOf "Hash"]) := by
    have hl : coreDecls.length = 5 := rfl
    have hed : ∀ b, edges U coreDecls (nameOf "Hash") b = edge U coreDecls b (.app "Enumerable".toList [.tuple [.cls tKA, .cls tVA]]) ::
        [edge U coreDecls b (.cls "Object".toList)] := fun b => rfl
    have ho : ownMethod coreDecls (nameOf "Hash") (nameOf "map") = none := rfl
    rw [hl, search, if_neg (by simp), ho]
    simp only
    rw [hed, he, searchAll, h1 _ _ (by decide)]
  unfold ownerOf
  rw [hi]
  simp only
  rw [hp]
  simp only
  rw [hb]
  simp only [HigherOrder.Out.bind]
  rw [hs]

/-- C70 fails for aliases: `{ a: 1 }.select { … }`, an alias of `filter`, is not found, though it is one of the methods of `Hash`. -/
theorem c70_alias_fails : ownerOf U coreDecls (.hash [symbolTy] [intA]) (nameOf "filter") =
      .ok ⟨nameOf "Hash", ["unchecked out K".toList, "unchecked out V".toList], filterMethod, [(tKA, symbolTy), (tVA, intA)]⟩ ∧
    Offers coreDecls false (nameOf "Hash") (nameOf "select") ∧ ∀ o, ownerOf U coreDecls (.hash [symbolTy] [intA]) (nameOf "select") ≠ .ok o := by
  refine ⟨rfl, ⟨_, ⟨by decide, coreDecls.take 4, [], rfl, rfl, by simp⟩, .inr ⟨nameOf "filter", false, by simp, by simp⟩⟩, fun o h => ?_⟩
  obtain ⟨c, h1, h2, h3, -⟩ := c70_found h
  have hn : ∀ y ps x, ¬ Defines coreDecls y (nameOf "select") ps x := by
    rintro y ps x ⟨d, ⟨-, pre, post, e, -⟩, -, pre', post', e', -, e2, -⟩
    have hd : d ∈ coreDecls := by rw [e]; simp
    have hx : x ∈ d.methods := by rw [e']; simp
    have : ∀ d ∈ coreDecls, ∀ x ∈ d.methods, x.name ≠ nameOf "select" := by decide
    exact this d hd x hx e2
  exact hn _ _ _ h3

def meth (m : String) (t : String) : Method := ⟨nameOf m, false, [⟨[], [], .cls t.toList, none⟩]⟩
def smeth (m : String) (t : String) : Method := ⟨nameOf m, true, [⟨[], [], .cls t.toList, none⟩]⟩
def modul (n : String) (ms : List Method) : Decl := ⟨.mod, nameOf n, [], none, ms, []⟩
def klass (n : String) (sup : Option Rbs) (ms : List Method) (mem : List Member) : Decl := ⟨.cls, nameOf n, [], sup, ms, mem⟩

/-- C70 fails for two included modules: after `include M` and `include N` Ruby takes the `m` of `N`, but the one of `M` is found. -/
theorem c70_include_order_fails :
    let L : Loader := [modul "M" [meth "m" "Integer"], modul "N" [meth "m" "String"], klass "A" none [] [.incl (.cls "M".toList), .incl (.cls "N".toList)]]
    ownerOf U L (.cls (nameOf "A")) (nameOf "m") = .ok ⟨nameOf "M", [], meth "m" "Integer", []⟩ ∧
    Lin L true (nameOf "A") [nameOf "A", nameOf "N", nameOf "M"] ∧
    First (fun y => ∃ ps x, Defines L y (nameOf "m") ps x) [nameOf "A", nameOf "N", nameOf "M"] (nameOf "N") := by
  intro L
  have hA : Declared L (nameOf "A") (klass "A" none [] [.incl (.cls "M".toList), .incl (.cls "N".toList)]) :=
    ⟨by decide, [modul "M" [meth "m" "Integer"], modul "N" [meth "m" "String"]], [], rfl, rfl, by simp⟩
  have hM : Declared L (nameOf "M") (modul "M" [meth "m" "Integer"]) :=
    ⟨by decide, [], [modul "N" [meth "m" "String"], klass "A" none [] [.incl (.cls "M".toList), .incl (.cls "N".toList)]], rfl, rfl, by decide⟩
  have hN : Declared L (nameOf "N") (modul "N" [meth "m" "String"]) :=
    ⟨by decide, [modul "M" [meth "m" "Integer"]], [klass "A" none [] [.incl (.cls "M".toList), .incl (.cls "N".toList)]], rfl, rfl, by decide⟩
  have hO : ∀ d, ¬ Declared L (nameOf "Object") d := node_none.mp rfl
  have lM : Lin L true (nameOf "M") [nameOf "M"] := .node hM .nil (.mod rfl) .nil
  have lN : Lin L true (nameOf "N") [nameOf "N"] := .node hN .nil (.mod rfl) .nil
  refine ⟨rfl, ?_, ?_⟩
  · refine .node (ts := [.cls "M".toList, .cls "N".toList]) (us := [.cls "Object".toList]) hA (.here (.here .nil)) (.object rfl rfl (by decide)) ?_
    exact LinAll.cons (l := [nameOf "N"]) (target_iff.mp rfl) lN
      (LinAll.cons (l := [nameOf "M"]) (target_iff.mp rfl) lM (LinAll.cons (l := []) (target_iff.mp rfl) (.missing hO) .nil))
  · refine ⟨[nameOf "A"], [nameOf "M"], rfl, ⟨[], _, _, hN, rfl, [], [], rfl, rfl, rfl, by simp⟩, ?_⟩
    intro b hb
    simp only [List.mem_singleton] at hb
    subst hb
    rintro ⟨ps, x, h⟩
    exact own_none.mp (show ownMethod L (nameOf "A") (nameOf "m") = none from rfl) ps x h

/-- C70 fails for a prepended module: Ruby takes the `m` of `M`, but the one of the class is found. -/
theorem c70_prepend_fails :
    ownerOf U [modul "M" [meth "m" "Integer"], klass "A" none [meth "m" "String"] [.prep (.cls "M".toList)]] (.cls (nameOf "A")) (nameOf "m") =
      .ok ⟨nameOf "A", [], meth "m" "String", []⟩ ∧
    (methodExists [modul "M" [meth "m" "Integer"], klass "A" none [] [.prep (.cls "M".toList)]] (nameOf "A") (nameOf "m") false []).1 = false := ⟨rfl, rfl⟩

/-- C70 fails for classes as receivers: `A.m { … }` is the instance method `m`. -/
theorem c70_class_object_fails : ownerOf U [klass "A" none [smeth "m" "Integer", meth "m" "String"] []] (.clsRef (nameOf "A")) (nameOf "m") =
    .ok ⟨nameOf "A", [], meth "m" "String", []⟩ := rfl

/-- C70 fails for nested names: an instance of `B::A` has the methods of `A`. -/
theorem c70_last_name_fails : ownerOf U [klass "A" none [meth "m" "String"] [], klass "B::A" none [meth "m" "Integer"] []] (.cls (nameOf "B::A")) (nameOf "m") =
    .ok ⟨nameOf "A", [], meth "m" "String", []⟩ := rfl

/-- C70 fails if an included module is not declared: the method of the superclass is then not found. -/
theorem c70_missing_include_fails :
    let L : Loader := [klass "B" none [meth "m" "String"] [], klass "A" (some (.cls "B".toList)) [] [.incl (.cls "Missing".toList)]]
    ownerOf U L (.cls (nameOf "A")) (nameOf "m") = .err .unsupported ∧ ownerOf U L (.cls (nameOf "B")) (nameOf "m") = .ok ⟨nameOf "B", [], meth "m" "String", []⟩ ∧
      Inherits L (nameOf "A") (nameOf "B") := by
  intro L
  exact ⟨rfl, rfl, inherits_iff.mpr (show nameOf "B" ∈ [nameOf "Missing", nameOf "B"] by simp)⟩

/-- C70 fails for the methods of a class object: they are said to contain the instance methods, and not those of modules that the
class is extended with. -/
theorem c70_singleton_fails :
    (methodExists [klass "A" none [meth "m" "String"] []] (nameOf "A") (nameOf "m") true []).1 = true ∧
    (methodExists [modul "M" [meth "m" "String"], klass "A" none [] [.ext (.cls "M".toList)]] (nameOf "A") (nameOf "m") true []).1 = false := ⟨rfl, rfl⟩

/-- C70 fails for an alias of an instance method if there is a singleton method of the same name before it: the alias `n` of the
instance method `m`, which returns a string, is listed with an integer. -/
theorem c70_alias_kind_fails :
    (classMethods U [klass "A" none [smeth "m" "Integer", meth "m" "String"] [.alias (nameOf "n") (nameOf "m") false]] (nameOf "A") false) =
      [⟨nameOf "m", some stringTy, false, []⟩, ⟨nameOf "n", some intA, false, []⟩] := by
  have h1 : RbsTypes.conv U (.cls "String".toList) = stringTy := by
    rw [RbsTypes.conv]; exact RbsTypes.ascii_class (by decide) (by decide) (by decide)
  have h2 : RbsTypes.conv U (.cls "Integer".toList) = intA := by
    rw [RbsTypes.conv]; exact RbsTypes.ascii_class (by decide) (by decide) (by decide)
  rw [← h1, ← h2]
  rfl

end Verif.RbsAncestors
